import Verif.Model.Linking
import Verif.Lemmas.Mesh

/-!
# Lemmas about sync tasks on connections registered at each end in its own time
-/

set_option linter.unusedSectionVars false

namespace Verif.LNet
open Verif Verif.Conns Verif.MNet

variable {U B T : Type} [DecidableEq U] [DecidableEq B] [DecidableEq T] [LT B] [DecidableLT B] {P : Nat → B → B → Prop}

/-- The topic sync map of broker `b`. -/
abbrev S (n : LNet U B T) (b : B) : TopicSync T := (n.st b).topicSync

/-- The task will send to `b'` on `c`, or to `b'` on what it finds then. -/
def Pending (τ : LTask U B T) (b' : B) (c : Nat) : Prop :=
  τ.held = some (b', c) ∨ ∀ ds, τ.dests = some ds → b' ∈ ds

/-- `b'` knows entry `x` of `b` about `t`, or will be told on `c`. -/
def Covered (n : LNet U B T) (b b' : B) (c : Nat) (t : T) (x : VV SubStatus) : Prop :=
  (n.conn b' b = some c ∧ ∃ e, (n.st b').brokers.get b = some e ∧ e.topicSync.map.get t = some x) ∨
  (b, b') ∈ n.fullT ∨
  (∃ τ ∈ n.tasks, τ.here = b ∧ Says τ.msg t x ∧ Pending τ b' c) ∨
  ∃ m ∈ n.q c b, Says m t x

/-- Invariant for topic interest after at most `k` steps. -/
structure Inv (P : Nat → B → B → Prop) (n : LNet U B T) (k : Nat) : Prop where
  differ : ∀ c b b', n.ends c = some (b, b') → b ≠ b'
  own : ∀ b, TInv (n.st b) k
  reg : ∀ b b' c, n.conn b b' = some c → n.joins c b b' ∧ n.spent c b = true
  fresh : ∀ c b b', n.joins c b b' → n.spent c b = false → n.q c b = []
  held : ∀ τ ∈ n.tasks, ∀ d c, τ.held = some (d, c) → n.joins c τ.here d ∧ n.spent c τ.here = true
  view : ∀ b b' c, P c b b' → n.conn b' b = some c → (n.conn b b' = some c ∨ n.spent c b = false) → RInv (n.st b') b (n.S b)
  taskOld : ∀ τ ∈ n.tasks, Old τ.msg (n.S τ.here)
  qOld : ∀ b b' c, n.conn b b' = some c → ∀ m ∈ n.q c b, Old m (n.S b)
  cov : ∀ b b' c, P c b b' → n.conn b b' = some c → (n.conn b' b = some c ∨ n.spent c b' = false) →
    ∀ t x, (n.S b).map.get t = some x → Covered n b b' c t x

theorem inv_start : Inv P (start : LNet U B T) 0 := by
  have hc : ∀ b b', (start : LNet U B T).conn b b' = none := fun _ _ => rfl
  refine ⟨(fun c b b' h => nomatch h), fun b => tinv_new b, ?_, ?_, ?_, ?_, ?_, ?_, ?_⟩
  · intro b b' c h; rw [hc] at h; cases h
  · intro c b b' h; rcases h with h | h <;> cases h
  · intro τ h; simp [start] at h
  · intro b b' c _ h; rw [hc] at h; cases h
  · intro τ h; simp [start] at h
  · intro b b' c h; rw [hc] at h; cases h
  · intro b b' c _ h; rw [hc] at h; cases h

theorem Inv.mono {n : LNet U B T} {k l : Nat} (h : Inv P n k) (hkl : k ≤ l) : Inv P n l :=
  { h with own := fun b => (h.own b).mono hkl }

theorem joins_symm {n : LNet U B T} {c : Nat} {b b' : B} (h : n.joins c b b') : n.joins c b' b := Or.symm h

/-- A connection has the one pair of ends. -/
theorem joins_other {n : LNet U B T} {k : Nat} (h : Inv P n k) {c : Nat} {b b1 b2 : B} (h1 : n.joins c b b1)
    (h2 : n.joins c b b2) : b1 = b2 := by
  rcases h1 with h1 | h1 <;> rcases h2 with h2 | h2 <;> rw [h1] at h2 <;> cases h2
  · rfl
  · exact absurd rfl (h.differ _ _ _ h1)
  · exact absurd rfl (h.differ _ _ _ h1)
  · rfl

theorem joins_ne {n : LNet U B T} {k : Nat} (h : Inv P n k) {c : Nat} {b b' : B} (h1 : n.joins c b b') : b ≠ b' := by
  rcases h1 with h1 | h1
  · exact h.differ _ _ _ h1
  · exact (h.differ _ _ _ h1).symm

theorem conn_iff (n : LNet U B T) (b b' : B) (c : Nat) :
    n.conn b b' = some c ↔ ∃ e, (n.st b).brokers.get b' = some e ∧ e.handle = c := by
  unfold conn getBrokerConnection
  cases (n.st b).brokers.get b' <;> simp

theorem conn_of_get {n n' : LNet U B T} {b b' : B} (h : (n'.st b).brokers.get b' = (n.st b).brokers.get b') :
    n'.conn b b' = n.conn b b' := by
  unfold conn getBrokerConnection; rw [h]

/-! ## Calls -/

theorem st_act (n : LNet U B T) (b : B) (op : Op U B T Nat) (x : B) :
    (n.act b op).st x = if x = b then (n.st b).step op else n.st x := rfl

theorem st_act_self (n : LNet U B T) (b : B) (op : Op U B T Nat) :
    (n.act b op).st b = (n.st b).step op := by rw [st_act, if_pos rfl]

theorem st_act_ne (n : LNet U B T) (b : B) (op : Op U B T Nat) {x : B} (h : x ≠ b) :
    (n.act b op).st x = n.st x := by rw [st_act, if_neg h]

theorem own_act (n : LNet U B T) (b : B) (op : Op U B T Nat) {k : Nat} (h : ∀ b, TInv (n.st b) k)
    (x : B) : TInv ((n.act b op).st x) (k + 1) := by
  rw [st_act]; split
  · exact tinv_step (h b) op
  · exact (h x).mono (by omega)

theorem S_act_quiet (n : LNet U B T) (b : B) (op : Op U B T Nat) (hop : op ≠ .partialTopicSync)
    (x : B) : (n.act b op).S x = n.S x := by
  unfold S; rw [st_act]; split
  · rename_i e; subst e; exact (topicSync_step _ _ hop).1
  · rfl

/-- A call that concerns no broker. -/
theorem inv_quiet {n : LNet U B T} {k : Nat} (h : Inv P n k) (b : B) (op : Op U B T Nat)
    (hop : op ≠ .partialTopicSync) (hna : ∀ b', NotAbout b' op) : Inv P (n.act b op) (k + 1) := by
  have hg : ∀ x b', ((n.act b op).st x).brokers.get b' = (n.st x).brokers.get b' := by
    intro x b'
    rw [st_act]; split
    · rename_i e; subst e; exact (notAbout_step _ b' op (h.own _).index (hna b')).1
    · rfl
  have hc : ∀ x b', (n.act b op).conn x b' = n.conn x b' := fun x b' => conn_of_get (hg x b')
  have hS := S_act_quiet n b op hop
  refine ⟨h.differ, own_act n b op h.own, ?_, h.fresh, h.held, ?_, ?_, ?_, ?_⟩
  · intro b1 b2 c h1; rw [hc] at h1; exact h.reg b1 b2 c h1
  · intro b1 b2 c hp h1 h2
    rw [hc] at h1 h2
    rw [hS]
    refine rinv_congr (h.view b1 b2 c hp h1 h2) ((own_act n b op h.own b2).index) (hg b2 b1) ?_
    intro t
    rw [st_act]; split
    · rename_i e; subst e; exact (notAbout_step _ b1 op (h.own _).index (hna b1)).2 t
    · rfl
  · intro τ hi; rw [hS]; exact h.taskOld τ hi
  · intro b1 b2 c h1 m hm; rw [hc] at h1; rw [hS]; exact h.qOld b1 b2 c h1 m hm
  · intro b1 b2 c hp h1 h2 t x hx
    rw [hc] at h1 h2
    rw [hS] at hx
    rcases h.cov b1 b2 c hp h1 h2 t x hx with ⟨h5, e, h3, h4⟩ | h3
    · left; exact ⟨by rw [hc]; exact h5, e, by rw [hg]; exact h3, h4⟩
    · right; exact h3

/-- `b` forgets `b'`. -/
theorem inv_remove {n : LNet U B T} {k : Nat} (h : Inv P n k) (b b' : B) :
    Inv P (n.act b (.removeBroker b')) (k + 1) := by
  have hS := S_act_quiet n b (.removeBroker b') (by simp)
  have hg : ∀ x y, ((n.act b (.removeBroker b')).st x).brokers.get y =
      if x = b ∧ y = b' then none else (n.st x).brokers.get y := by
    intro x y
    rw [st_act]; split
    · rename_i e; subst e
      show ((n.st x).removeBroker b').brokers.get y = _
      rw [removeBroker_brokers_get]
      by_cases hy : b' = y
      · simp [hy]
      · simp [hy, Ne.symm hy]
    · rename_i e; simp [e]
  have hc : ∀ x y c, (n.act b (.removeBroker b')).conn x y = some c → ¬ (x = b ∧ y = b') ∧ n.conn x y = some c := by
    intro x y c h1
    by_cases e : x = b ∧ y = b'
    · unfold conn getBrokerConnection at h1
      rw [hg, if_pos e] at h1; cases h1
    · refine ⟨e, ?_⟩
      rw [← h1]
      exact (conn_of_get (n := n) (n' := n.act b (.removeBroker b')) (by rw [hg, if_neg e])).symm
  have hc' : ∀ x y, ¬ (x = b ∧ y = b') → (n.act b (.removeBroker b')).conn x y = n.conn x y :=
    fun x y e => conn_of_get (by rw [hg, if_neg e])
  refine ⟨h.differ, own_act n b _ h.own, ?_, h.fresh, h.held, ?_, ?_, ?_, ?_⟩
  · intro b1 b2 c h1; exact h.reg b1 b2 c (hc _ _ _ h1).2
  · intro b1 b2 c hp h1 h2
    obtain ⟨n1, h1⟩ := hc _ _ _ h1
    have h2 : n.conn b1 b2 = some c ∨ n.spent c b1 = false := h2.elim (fun h => Or.inl (hc _ _ _ h).2) Or.inr
    rw [hS]
    refine rinv_congr (h.view b1 b2 c hp h1 h2) ((own_act n b _ h.own b2).index) (by rw [hg, if_neg n1]) ?_
    intro t
    rw [st_act]; split
    · rename_i e; subst e
      have : b' ≠ b1 := fun e => n1 ⟨rfl, e.symm⟩
      exact (notAbout_step _ b1 (.removeBroker b') (h.own _).index this).2 t
    · rfl
  · intro τ hi; rw [hS]; exact h.taskOld τ hi
  · intro b1 b2 c h1 m hm; rw [hS]; exact h.qOld b1 b2 c (hc _ _ _ h1).2 m hm
  · intro b1 b2 c hp h1 h2 t x hx
    rw [hS] at hx
    by_cases e : b2 = b ∧ b1 = b'
    · -- the receiver forgot the sender: the connection is one it has not registered yet
      have h2 : n.spent c b2 = false := h2.elim (fun h3 => absurd e (hc _ _ _ h3).1) id
      rcases h.cov b1 b2 c hp (hc _ _ _ h1).2 (Or.inr h2) t x hx with ⟨h5, _⟩ | h3
      · rw [(h.reg _ _ _ h5).2] at h2; cases h2
      · right; exact h3
    · have h2 : n.conn b2 b1 = some c ∨ n.spent c b2 = false := h2.elim (fun h => Or.inl (hc _ _ _ h).2) Or.inr
      rcases h.cov b1 b2 c hp (hc _ _ _ h1).2 h2 t x hx with ⟨h5, y, h3, h4⟩ | h3
      · left; exact ⟨by rw [hc' _ _ e]; exact h5, y, by rw [hg, if_neg e]; exact h3, h4⟩
      · right; exact h3

/-- A connection that both have authenticated. -/
theorem inv_authenticated {n : LNet U B T} {k : Nat} (h : Inv P n k) (c : Nat) (b b' : B) :
    Inv P (n.step (.authenticated c b b')) k := by
  simp only [step]
  split
  · exact h
  · rename_i hg
    obtain ⟨hne, hnone⟩ : b ≠ b' ∧ n.ends c = none := by
      refine ⟨fun e => hg (Or.inl e), ?_⟩
      cases hh : n.ends c with
      | none => rfl
      | some _ => exact absurd (Or.inr (by rw [hh]; simp)) hg
    have old : ∀ c' x y, n.joins c' x y → c' ≠ c := by
      rintro c' x y (h1 | h1) rfl <;> rw [hnone] at h1 <;> cases h1
    have oldc : ∀ x y c', n.conn x y = some c' → c' ≠ c := fun x y c' h1 => old c' x y (h.reg _ _ _ h1).1
    refine ⟨?_, h.own, ?_, ?_, ?_, ?_, h.taskOld, ?_, ?_⟩
    · intro c' x y h1
      simp only at h1
      split at h1
      · cases h1; exact hne
      · exact h.differ _ _ _ h1
    · intro x y c' h1
      have e := oldc x y c' h1
      obtain ⟨h2, h3⟩ := h.reg x y c' h1
      simp only [joins, e, if_false]
      exact ⟨h2, h3⟩
    · intro c' x y h1 h2
      simp only
      split
      · rfl
      · rename_i e
        simp only [joins, e, if_false] at h1 h2
        exact h.fresh c' x y h1 h2
    · intro τ hτ d c' h1
      obtain ⟨h2, h3⟩ := h.held τ hτ d c' h1
      have e := old _ _ _ h2
      simp only [joins, e, if_false]
      exact ⟨h2, h3⟩
    · intro x y c' hp h1 h2
      have e := oldc _ _ c' h1
      simp only [e, if_false] at h2
      exact h.view x y c' hp h1 h2
    · intro x y c' h1 m hm
      have e := oldc _ _ c' h1
      simp only [e, if_false] at hm
      exact h.qOld x y c' h1 m hm
    · intro x y c' hp h1 h2 t v hv
      have e := oldc _ _ c' h1
      simp only [e, if_false] at h2
      rcases h.cov x y c' hp h1 h2 t v hv with h3 | h3 | h3 | h3
      · left; exact h3
      · right; left; exact h3
      · right; right; left; exact h3
      · right; right; right
        simp only [e, if_false]; exact h3

/-- One end of a connection is registered. -/
theorem inv_register {n : LNet U B T} {k : Nat} (h : Inv P n k) (c : Nat) (b b' : B) :
    Inv P (n.step (.register c b b')) (k + 1) := by
  by_cases hgd : n.joins c b b' ∧ n.spent c b = false
  · obtain ⟨hj, hsp⟩ := hgd
    have hne := joins_ne h hj
    generalize hn' : n.step (.register c b b') = n'
    have hst : n'.st = (n.act b (.addBroker b' c)).st := by
      rw [← hn']; simp only [step]; rw [if_pos ⟨hj, hsp⟩]
    have htasks : n'.tasks = n.tasks := by
      rw [← hn']; simp only [step]; rw [if_pos ⟨hj, hsp⟩]; rfl
    have hfull : n'.fullT = (b, b') :: n.fullT := by
      rw [← hn']; simp only [step]; rw [if_pos ⟨hj, hsp⟩]
    have hends : n'.ends = n.ends := by
      rw [← hn']; simp only [step]; rw [if_pos ⟨hj, hsp⟩]; rfl
    have hq : n'.q = n.q := by
      rw [← hn']; simp only [step]; rw [if_pos ⟨hj, hsp⟩]; rfl
    have hspent : ∀ x y, n'.spent x y = if x = c ∧ y = b then true else n.spent x y := by
      rw [← hn']; simp only [step]; rw [if_pos ⟨hj, hsp⟩]; intro x y; rfl
    have hjoins : ∀ c' x y, n'.joins c' x y ↔ n.joins c' x y := by
      intro c' x y; unfold joins; rw [hends]
    clear hn'
    have hS : ∀ x, n'.S x = n.S x := by
      intro x
      show (n'.st x).topicSync = _
      rw [hst]; exact S_act_quiet n b _ (by simp) x
    have hown : ∀ x, TInv (n'.st x) (k + 1) := by rw [hst]; exact own_act n b _ h.own
    have hsb : n'.st b = (n.st b).addBroker b' c := by rw [hst, st_act_self]; rfl
    have hso : ∀ x, x ≠ b → n'.st x = n.st x := by intro x h1; rw [hst, st_act_ne _ _ _ h1]
    have hg : ∀ x y, ¬ (x = b ∧ y = b') → (n'.st x).brokers.get y = (n.st x).brokers.get y ∧
        ∀ t, (n'.st x).bcBrokers.Bwd y t ↔ (n.st x).bcBrokers.Bwd y t := by
      intro x y h1
      by_cases hx : x = b
      · subst hx
        have hy : ¬ y = b' := fun e => h1 ⟨rfl, e⟩
        rw [hsb]
        refine ⟨by rw [get_addBroker, if_neg (Ne.symm hy)], fun t => ?_⟩
        rw [bwd_addBroker _ (h.own x).index]; simp [hy]
      · rw [hso x hx]; exact ⟨rfl, fun _ => Iff.rfl⟩
    have hcn : n'.conn b b' = some c := by
      unfold conn getBrokerConnection
      rw [hsb, get_addBroker, if_pos rfl]; rfl
    have hco : ∀ x y, ¬ (x = b ∧ y = b') → n'.conn x y = n.conn x y := fun x y e => conn_of_get (hg x y e).1
    -- an old registration is not of this end
    have hold : ∀ x y c', n.conn x y = some c' → ¬ (c' = c ∧ x = b) := by
      rintro x y c' h1 ⟨rfl, rfl⟩
      rw [(h.reg _ _ _ h1).2] at hsp; cases hsp
    refine ⟨?_, hown, ?_, ?_, ?_, ?_, ?_, ?_, ?_⟩
    · rw [hends]; exact h.differ
    · intro x y c' h1
      rw [hjoins, hspent]
      by_cases e : x = b ∧ y = b'
      · obtain ⟨rfl, rfl⟩ := e
        rw [hcn] at h1; cases h1
        exact ⟨hj, by simp⟩
      · rw [hco _ _ e] at h1
        obtain ⟨h2, h3⟩ := h.reg _ _ _ h1
        exact ⟨h2, by rw [h3]; simp⟩
    · intro c' x y h1 h2
      rw [hjoins] at h1
      rw [hspent] at h2
      rw [hq]
      split at h2
      · cases h2
      · exact h.fresh c' x y h1 h2
    · intro τ hτ d c' h1
      rw [htasks] at hτ
      obtain ⟨h2, h3⟩ := h.held τ hτ d c' h1
      rw [hjoins, hspent, h3]
      exact ⟨h2, by simp⟩
    · intro x y c' hp h1 h2
      rw [hS]
      by_cases e : y = b ∧ x = b'
      · -- the new registration: nothing known yet
        obtain ⟨rfl, rfl⟩ := e
        refine ⟨(hown y).index, ⟨c, VMap.new 0⟩, ?_, ?_, ?_, ?_⟩
        · rw [hsb, get_addBroker, if_pos rfl]
        · intro t z hz; simp [VMap.new] at hz
        · intro t z hz; simp [VMap.new] at hz
        · intro t
          rw [hsb, bwd_addBroker _ (h.own y).index]
          simp [VMap.get, VMap.new]
      · rw [hco _ _ e] at h1
        have h2' : n.conn x y = some c' ∨ n.spent c' x = false := by
          by_cases e2 : x = b ∧ y = b'
          · -- the other end was first
            obtain ⟨rfl, rfl⟩ := e2
            rcases h2 with h2 | h2
            · rw [hcn] at h2; cases h2; exact Or.inr hsp
            · rw [hspent] at h2
              split at h2
              · cases h2
              · exact Or.inr h2
          · rcases h2 with h2 | h2
            · rw [hco _ _ e2] at h2; exact Or.inl h2
            · rw [hspent] at h2
              split at h2
              · cases h2
              · exact Or.inr h2
        exact rinv_congr (h.view x y c' hp h1 h2') (hown y).index (hg y x e).1 (hg y x e).2
    · intro τ hτ; rw [htasks] at hτ; rw [hS]; exact h.taskOld τ hτ
    · intro x y c' h1 m hm
      rw [hq] at hm
      rw [hS]
      by_cases e : x = b ∧ y = b'
      · obtain ⟨rfl, rfl⟩ := e
        rw [hcn] at h1; cases h1
        rw [h.fresh c x y hj hsp] at hm; cases hm
      · rw [hco _ _ e] at h1; exact h.qOld x y c' h1 m hm
    · intro x y c' hp h1 h2 t v hv
      rw [hS] at hv
      by_cases e : x = b ∧ y = b'
      · right; left; rw [hfull]; simp [e]
      · rw [hco _ _ e] at h1
        by_cases e2 : y = b ∧ x = b'
        · -- the receiver registers
          obtain ⟨rfl, rfl⟩ := e2
          have h2' : n.spent c' y = false := by
            rcases h2 with h2 | h2
            · rw [hcn] at h2; cases h2; exact hsp
            · rw [hspent] at h2
              split at h2
              · cases h2
              · exact h2
          rcases h.cov x y c' hp h1 (Or.inr h2') t v hv with ⟨h5, _⟩ | h3 | ⟨τ, h3, h4⟩ | h3
          · rw [(h.reg _ _ _ h5).2] at h2'; cases h2'
          · right; left; rw [hfull]; simp [h3]
          · right; right; left; exact ⟨τ, by rw [htasks]; exact h3, h4⟩
          · right; right; right; rw [hq]; exact h3
        · have h2' : n.conn y x = some c' ∨ n.spent c' y = false := by
            rcases h2 with h2 | h2
            · rw [hco _ _ e2] at h2; exact Or.inl h2
            · rw [hspent] at h2
              split at h2
              · cases h2
              · exact Or.inr h2
          rcases h.cov x y c' hp h1 h2' t v hv with ⟨h5, z, h3, h4⟩ | h3 | ⟨τ, h3, h4⟩ | h3
          · left; exact ⟨by rw [hco _ _ e2]; exact h5, z, by rw [(hg _ _ e2).1]; exact h3, h4⟩
          · right; left; rw [hfull]; simp [h3]
          · right; right; left; exact ⟨τ, by rw [htasks]; exact h3, h4⟩
          · right; right; right; rw [hq]; exact h3
  · have : n.step (.register c b b') = n := by simp only [step]; rw [if_neg hgd]
    rw [this]; exact h.mono (by omega)

/-! ## Syncs -/

/-- More tasks, less to be told initially. -/
theorem inv_spawn {n : LNet U B T} {k : Nat} (h : Inv P n k) (τ : LTask U B T) (hh : τ.held = none)
    (ho : Old τ.msg (n.S τ.here)) : Inv P (n.spawn τ) k := by
  refine ⟨h.differ, h.own, h.reg, h.fresh, ?_, h.view, ?_, h.qOld, ?_⟩
  · intro σ hσ d c h1
    rcases List.mem_append.1 hσ with h2 | h2
    · exact h.held σ h2 d c h1
    · rw [List.mem_singleton.1 h2, hh] at h1; cases h1
  · intro σ hσ
    rcases List.mem_append.1 hσ with h2 | h2
    · exact h.taskOld σ h2
    · rw [List.mem_singleton.1 h2]; exact ho
  · intro b b' c hp h1 h2 t x hx
    rcases h.cov b b' c hp h1 h2 t x hx with h3 | h3 | ⟨σ, h3, h4⟩ | h3
    · left; exact h3
    · right; left; exact h3
    · right; right; left; exact ⟨σ, List.mem_append_left _ h3, h4⟩
    · right; right; right; exact h3

theorem inv_startTopic {n : LNet U B T} {k : Nat} (h : Inv P n k) (hk : k + 1 < 2 ^ 64) (b : B) :
    Inv P (n.step (.startTopic b)) (k + 1) := by
  obtain ⟨_, _, _, _, h5, h6⟩ := partialTopicSync_spec (n.st b) (h.own b).index (h.own b).clean
  have hna : ∀ b', NotAbout b' (Op.partialTopicSync : Op U B T Nat) := fun _ => trivial
  have hg : ∀ x y, ((n.act b .partialTopicSync).st x).brokers.get y = (n.st x).brokers.get y ∧
      ∀ t, ((n.act b .partialTopicSync).st x).bcBrokers.Bwd y t ↔ (n.st x).bcBrokers.Bwd y t := by
    intro x y
    rw [st_act]; split
    · rename_i e; subst e
      exact notAbout_step _ y .partialTopicSync (h.own _).index (hna y)
    · exact ⟨rfl, fun _ => Iff.rfl⟩
  have hc : ∀ x y, (n.act b .partialTopicSync).conn x y = n.conn x y := fun x y => conn_of_get (hg x y).1
  have hpast : ∀ x, Past (n.S x) ((n.act b .partialTopicSync).S x) := by
    intro x
    unfold S; rw [st_act]; split
    · rename_i e; subst e; exact past_step (h.own _) hk _
    · exact Past.refl _
  have hown := own_act n b .partialTopicSync h.own
  have hreg : ∀ b1 b2 c, (n.act b .partialTopicSync).conn b1 b2 = some c →
      n.joins c b1 b2 ∧ n.spent c b1 = true := by
    intro b1 b2 c h1; rw [hc] at h1; exact h.reg b1 b2 c h1
  have hview : ∀ b1 b2 c, P c b1 b2 → (n.act b .partialTopicSync).conn b2 b1 = some c →
      ((n.act b .partialTopicSync).conn b1 b2 = some c ∨ n.spent c b1 = false) →
      RInv ((n.act b .partialTopicSync).st b2) b1 ((n.act b .partialTopicSync).S b1) := by
    intro b1 b2 c hp h1 h2
    rw [hc] at h1 h2
    exact rinv_mono (rinv_congr (h.view b1 b2 c hp h1 h2) (hown b2).index (hg b2 b1).1 (hg b2 b1).2) (hpast b1)
  have hqOld : ∀ b1 b2 c, (n.act b .partialTopicSync).conn b1 b2 = some c → ∀ m ∈ n.q c b1,
      Old m ((n.act b .partialTopicSync).S b1) := by
    intro b1 b2 c h1 m hm
    rw [hc] at h1
    exact (h.qOld b1 b2 c h1 m hm).mono (hpast b1)
  have hcov : ∀ b1 b2 c, P c b1 b2 → (n.act b .partialTopicSync).conn b1 b2 = some c →
      ((n.act b .partialTopicSync).conn b2 b1 = some c ∨ n.spent c b2 = false) →
      ∀ t x, (n.S b1).map.get t = some x → Covered (n.act b .partialTopicSync) b1 b2 c t x := by
    intro b1 b2 c hp h1 h2 t x hx
    rw [hc] at h1 h2
    rcases h.cov b1 b2 c hp h1 h2 t x hx with ⟨h8, e, h3, h4⟩ | h3
    · left; exact ⟨by rw [hc]; exact h8, e, by rw [(hg b2 b1).1]; exact h3, h4⟩
    · right; exact h3
  simp only [step]
  cases hr : (n.st b).getPartialTopicSync.2 with
  | none =>
    rw [hr] at h6
    simp only []
    refine ⟨h.differ, hown, hreg, h.fresh, h.held, hview, ?_, hqOld, ?_⟩
    · intro τ hi; exact (h.taskOld τ hi).mono (hpast _)
    · intro b1 b2 c hp h1 h2 t x hx
      apply hcov b1 b2 c hp h1 h2 t x
      revert hx
      unfold S
      rw [st_act]; split
      · rename_i e; subst e
        intro hx
        simp only [Conns.step] at hx
        rw [h5] at hx
        have h7 := h6 t
        rw [if_neg (by rintro ⟨h8, h9⟩; exact h9 (h7.2 h8)),
          if_neg (by rintro ⟨h8, h9⟩; exact h9 (h7.1 h8))] at hx
        exact hx
      · exact fun hx => hx
  | some m =>
    rw [hr] at h6
    simp only []
    have hm : ∀ t x, m.map.get t = some x → ((n.act b .partialTopicSync).S b).map.get t = some x := by
      intro t x hx
      rw [h6.2] at hx
      split at hx
      · unfold S; rw [st_act_self]; exact hx
      · simp at hx
    refine ⟨h.differ, hown, hreg, h.fresh, ?_, hview, ?_, hqOld, ?_⟩
    · intro σ hσ d c h1
      rcases List.mem_append.1 hσ with h2 | h2
      · exact h.held σ h2 d c h1
      · rw [List.mem_singleton.1 h2] at h1; cases h1
    · intro σ hσ
      rcases List.mem_append.1 hσ with h1 | h1
      · exact (h.taskOld σ h1).mono (hpast _)
      · rw [List.mem_singleton.1 h1]
        rintro m' ⟨⟩
        refine ⟨fun t x hx => ⟨x, hm t x hx, Or.inr rfl⟩, fun t x hx => ?_⟩
        exact ((hown b).ent t x (hm t x hx)).1
    · intro b1 b2 c hp h1 h2 t x hx
      have hlift : Covered (n.act b .partialTopicSync) b1 b2 c t x →
          Covered ((n.act b .partialTopicSync).spawn ⟨b, .topic m, none, none⟩) b1 b2 c t x := by
        rintro (h3 | h3 | ⟨σ, h3, h4⟩ | h3)
        · left; exact h3
        · right; left; exact h3
        · right; right; left; exact ⟨σ, List.mem_append_left _ h3, h4⟩
        · right; right; right; exact h3
      by_cases hb : b1 = b
      · subst hb
        have hx' : ((n.st b1).getPartialTopicSync.1).topicSync.map.get t = some x := by
          have : ((n.act b1 .partialTopicSync).S b1).map.get t = some x := hx
          unfold S at this; rw [st_act_self] at this; exact this
        by_cases hcc : ((n.st b1).LocalTopic t ∧ t ∉ (n.st b1).prev) ∨
            (t ∈ (n.st b1).prev ∧ ¬ (n.st b1).LocalTopic t)
        · right; right; left
          refine ⟨⟨b1, .topic m, none, none⟩, List.mem_append_right _ (List.mem_singleton.2 rfl), rfl,
            ⟨m, rfl, ?_⟩, Or.inr (fun ds hds => nomatch hds)⟩
          rw [h6.2, if_pos hcc]; exact hx'
        · apply hlift
          apply hcov b1 b2 c hp h1 h2 t x
          rw [h5, if_neg (fun h8 => hcc (Or.inl h8)), if_neg (fun h8 => hcc (Or.inr h8))] at hx'
          exact hx'
      · apply hlift
        apply hcov b1 b2 c hp h1 h2 t x
        have : ((n.act b .partialTopicSync).S b1).map.get t = some x := hx
        unfold S at this; rw [st_act_ne _ _ _ hb] at this; exact this

theorem inv_fullTopic {n : LNet U B T} {k : Nat} (h : Inv P n k) (b b' : B) :
    Inv P (n.step (.fullTopic b b')) k := by
  simp only [step]
  split
  · rename_i hmem
    cases hf : (n.st b).getFullTopicSync with
    | none =>
      simp only []
      refine ⟨h.differ, h.own, h.reg, h.fresh, h.held, h.view, h.taskOld, h.qOld, ?_⟩
      intro b1 b2 c hp h1 h2 t x hx
      rcases h.cov b1 b2 c hp h1 h2 t x hx with h3 | h3 | h3 | h3
      · left; exact h3
      · by_cases e : (b1, b2) = (b, b')
        · exfalso
          cases e
          unfold getFullTopicSync at hf
          split at hf
          · rename_i he
            rw [AMap.isEmpty_iff] at he
            have := he t
            have hx' : (n.st b).topicSync.map.get t = some x := hx
            rw [this] at hx'; simp at hx'
          · simp at hf
        · right; left
          exact (List.mem_erase_of_ne e).2 h3
      · right; right; left; exact h3
      · right; right; right; exact h3
    | some m =>
      have hm : m = n.S b := by
        unfold getFullTopicSync at hf
        split at hf
        · simp at hf
        · exact (Option.some.inj hf).symm
      simp only []
      refine ⟨h.differ, h.own, h.reg, h.fresh, ?_, h.view, ?_, h.qOld, ?_⟩
      · intro σ hσ d c h1
        rcases List.mem_append.1 hσ with h2 | h2
        · exact h.held σ h2 d c h1
        · rw [List.mem_singleton.1 h2] at h1; cases h1
      · intro σ hσ
        rcases List.mem_append.1 hσ with h2 | h2
        · exact h.taskOld σ h2
        · rw [List.mem_singleton.1 h2]
          rintro m' ⟨⟩
          rw [hm]
          exact ⟨Past.refl _, fun t x hx => ((h.own b).ent t x hx).1⟩
      · intro b1 b2 c hp h1 h2 t x hx
        rcases h.cov b1 b2 c hp h1 h2 t x hx with h3 | h3 | ⟨σ, h3, h4⟩ | h3
        · left; exact h3
        · by_cases e : (b1, b2) = (b, b')
          · cases e
            right; right; left
            refine ⟨⟨b, .topic m, some [b'], none⟩, List.mem_append_right _ (List.mem_singleton.2 rfl), rfl,
              ⟨m, rfl, ?_⟩, Or.inr ?_⟩
            · rw [hm]; exact hx
            · rintro ds ⟨⟩; simp
          · right; left
            exact (List.mem_erase_of_ne e).2 h3
        · right; right; left; exact ⟨σ, List.mem_append_left _ h3, h4⟩
        · right; right; right; exact h3
  · exact h

theorem inv_fullUser {n : LNet U B T} {k : Nat} (h : Inv P n k) (b b' : B) :
    Inv P (n.step (.fullUser b b')) k := by
  simp only [step]
  split
  · have h' : Inv P { n with fullU := n.fullU.erase (b, b') } k :=
      ⟨h.differ, h.own, h.reg, h.fresh, h.held, h.view, h.taskOld, h.qOld, h.cov⟩
    cases (n.st b).getFullUserSync with
    | none => exact h'
    | some m => exact inv_spawn h' _ rfl (fun m' e => nomatch e)
  · exact h

theorem mem_set {A : Type} {l : List A} {i : Nat} {a x y : A} (_ : l[i]? = some x) (h : y ∈ l.set i a) :
    y = a ∨ y ∈ l := by
  rcases List.mem_or_eq_of_mem_set h with h | h
  · exact Or.inr h
  · exact Or.inl h

theorem mem_set_old {A : Type} {l : List A} {i : Nat} {x y : A} (hi : l[i]? = some x) (a : A) (h : y ∈ l) :
    y = x ∨ y ∈ l.set i a := by
  obtain ⟨j, hj⟩ := List.mem_iff_getElem?.1 h
  by_cases e : j = i
  · subst e; rw [hi] at hj; cases hj; exact Or.inl rfl
  · exact Or.inr (List.mem_iff_getElem?.2 ⟨j, by rw [List.getElem?_set_ne (Ne.symm e)]; exact hj⟩)

theorem mem_set_new {A : Type} {l : List A} {i : Nat} {x : A} (hi : l[i]? = some x) (a : A) : a ∈ l.set i a :=
  List.mem_iff_getElem?.2 ⟨i, List.getElem?_set_self (List.getElem?_eq_some_iff.1 hi).1⟩

/-- Progress of a sync that does not lose anything. -/
theorem inv_setTask {n : LNet U B T} {k : Nat} (h : Inv P n k) (i : Nat) (τ τ' : LTask U B T)
    (hi : n.tasks[i]? = some τ) (hh : τ'.here = τ.here) (hm : τ'.msg = τ.msg)
    (hheld : ∀ d c, τ'.held = some (d, c) → n.joins c τ.here d ∧ n.spent c τ.here = true)
    (hlose : ∀ b' c, n.conn τ.here b' = some c → Pending τ b' c → Pending τ' b' c) :
    Inv P { n with tasks := n.tasks.set i τ' } k := by
  refine ⟨h.differ, h.own, h.reg, h.fresh, ?_, h.view, ?_, h.qOld, ?_⟩
  · intro σ hσ d c h1
    rcases mem_set hi hσ with rfl | h2
    · rw [hh]; exact hheld d c h1
    · exact h.held σ h2 d c h1
  · intro σ hσ
    rcases mem_set hi hσ with rfl | h2
    · have := h.taskOld τ (List.mem_of_getElem? hi)
      rw [hm]
      show Old τ.msg (n.S σ.here)
      rw [hh]; exact this
    · exact h.taskOld σ h2
  · intro b b' c hp h1 h2 t x hx
    rcases h.cov b b' c hp h1 h2 t x hx with h3 | h3 | ⟨σ, h3, h4, h5, h6⟩ | h3
    · left; exact h3
    · right; left; exact h3
    · right; right; left
      rcases mem_set_old hi τ' h3 with rfl | h7
      · subst h4
        exact ⟨τ', mem_set_new hi τ', hh, hm ▸ h5, hlose b' c h1 h6⟩
      · exact ⟨σ, h7, h4, h5, h6⟩
    · right; right; right; exact h3

theorem inv_readDests {n : LNet U B T} {k : Nat} (h : Inv P n k) (i : Nat) :
    Inv P (n.step (.readDests i)) k := by
  simp only [step]
  split
  · rename_i b m hi
    refine inv_setTask h i _ _ hi rfl rfl (fun d c e => nomatch e) ?_
    intro b' c hb' _
    right
    intro ds hds
    cases hds
    exact AMap.mem_keys.2 (by
      show ((n.st b).brokers.get b').isSome
      obtain ⟨e, h1, _⟩ := (conn_iff n b b' c).1 hb'
      rw [h1]; rfl)
  · exact h

theorem inv_lookup {n : LNet U B T} {k : Nat} (h : Inv P n k) (i : Nat) :
    Inv P (n.step (.lookup i)) k := by
  simp only [step]
  split
  · rename_i b m d ds hi
    refine inv_setTask h i _ _ hi rfl rfl ?_ ?_
    · intro d' c e
      cases hc : n.conn b d with
      | none => rw [hc] at e; cases e
      | some c' => rw [hc] at e; cases e; exact h.reg _ _ _ hc
    · intro b' c hb' hp
      rcases hp with hp | hp
      · cases hp
      · rcases List.mem_cons.1 (hp _ rfl) with rfl | h1
        · left
          have hb : n.conn b b' = some c := hb'
          show (n.conn b b').map _ = _
          rw [hb]; rfl
        · right; rintro ds' ⟨⟩; exact h1
  · exact h

theorem inv_push {n : LNet U B T} {k : Nat} (h : Inv P n k) (i : Nat) (ok : Bool) :
    Inv P (n.step (.push i ok)) (k + 1) := by
  simp only [step]
  split
  · rename_i b m ds d c hi
    have hmem : ⟨b, m, ds, some (d, c)⟩ ∈ n.tasks := List.mem_of_getElem? hi
    cases ok with
    | true =>
      simp only [if_true]
      have hq : ∀ x y z, z ∈ n.q x y → z ∈ ((({ n with tasks := n.tasks.set i ⟨b, m, ds, none⟩ } :
          LNet U B T).setQ c b (n.q c b ++ [m])).q x y) := by
        intro x y z hz
        simp only [setQ]
        split
        · rename_i e; rw [e.1, e.2] at hz; simp [hz]
        · exact hz
      refine Inv.mono (k := k) ⟨h.differ, h.own, h.reg, ?_, ?_, h.view, ?_, ?_, ?_⟩ (by omega)
      · intro c' x y h1 h2
        simp only [setQ]
        split
        · rename_i e
          obtain ⟨rfl, rfl⟩ := e
          have := (h.held _ hmem d c' rfl).2
          have h2' : n.spent c' x = false := h2
          simp only at this
          rw [this] at h2'; cases h2'
        · exact h.fresh c' x y h1 h2
      · intro σ hσ d' c' h1
        rcases mem_set hi hσ with rfl | h2
        · cases h1
        · exact h.held σ h2 d' c' h1
      · intro σ hσ
        rcases mem_set hi hσ with rfl | h2
        · exact h.taskOld ⟨b, m, ds, some (d, c)⟩ hmem
        · exact h.taskOld σ h2
      · intro x y c' h1 z hz
        simp only [setQ] at hz
        split at hz
        · rename_i e
          obtain ⟨rfl, rfl⟩ := e
          rcases List.mem_append.1 hz with h2 | h2
          · exact h.qOld _ _ _ h1 z h2
          · rw [List.mem_singleton.1 h2]; exact h.taskOld _ hmem
        · exact h.qOld x y c' h1 z hz
      · intro x y c' hp h1 h2 t v hv
        rcases h.cov x y c' hp h1 h2 t v hv with h3 | h3 | ⟨σ, h3, h4, h5, h6⟩ | ⟨z, h3, h4⟩
        · left; exact h3
        · right; left; exact h3
        · rcases mem_set_old hi ⟨b, m, ds, none⟩ h3 with rfl | h7
          · simp only at h4
            subst h4
            rcases h6 with h6 | h6
            · cases h6
              right; right; right
              refine ⟨m, ?_, h5⟩
              simp [setQ]
            · right; right; left
              exact ⟨⟨b, m, ds, none⟩, mem_set_new hi _, rfl, h5, Or.inr h6⟩
          · right; right; left; exact ⟨σ, h7, h4, h5, h6⟩
        · right; right; right; exact ⟨z, hq _ _ _ h3, h4⟩
    | false =>
      simp only [Bool.false_eq_true, if_false]
      have h' := inv_remove h b d
      refine inv_setTask h' i ⟨b, m, ds, some (d, c)⟩ ⟨b, m, ds, none⟩ hi rfl rfl (fun d c e => nomatch e) ?_
      intro b' c' hb' hp
      rcases hp with hp | hp
      · cases hp
        exfalso
        have : ((n.act b (.removeBroker d)).conn b d) = some c := hb'
        unfold conn getBrokerConnection at this
        rw [st_act_self] at this
        have h2 : ((n.st b).removeBroker d).brokers.get d = none := by rw [removeBroker_brokers_get, if_pos rfl]
        have h3 : ((n.st b).step (.removeBroker d)).brokers.get d = none := h2
        rw [h3] at this; cases this
      · exact Or.inr hp
  · exact h.mono (by omega)

/-! ## Deliveries -/

theorem applyTopicSync_conn (s : Conns U B T Nat) (b : B) (m : TopicSync T) (y : B) :
    (s.applyTopicSync b m).getBrokerConnection y = s.getBrokerConnection y := by
  unfold applyTopicSync getBrokerConnection
  cases he : s.brokers.get b with
  | none =>
    simp only
    rw [removeBroker_brokers_get]
    split
    · rename_i h; subst h; rw [he]
    · rfl
  | some e =>
    simp only
    rw [(foldl_applyTopicChange_frame _ b _).2.2.1]
    simp only [AMap.get_insert]
    split
    · rename_i h; subst h; rw [he]; rfl
    · rfl

/-- Taking a frame off a queue: what it says is known to the other end, if that matters. -/
theorem inv_pop {n : LNet U B T} {k : Nat} (h : Inv P n k) (c : Nat) (b : B) (l : List (SyncMsg U B T))
    (hl : ∀ z ∈ l, z ∈ n.q c b)
    (hlose : ∀ b', P c b b' → n.conn b b' = some c → (n.conn b' b = some c ∨ n.spent c b' = false) → ∀ z ∈ n.q c b, z ∈ l ∨
      ∀ t x, Says z t x → (n.S b).map.get t = some x →
        n.conn b' b = some c ∧ ∃ e, (n.st b').brokers.get b = some e ∧ e.topicSync.map.get t = some x) :
    Inv P (n.setQ c b l) k := by
  refine ⟨h.differ, h.own, h.reg, ?_, h.held, h.view, h.taskOld, ?_, ?_⟩
  · intro c' x y h1 h2
    simp only [setQ]
    split
    · rename_i e
      obtain ⟨rfl, rfl⟩ := e
      have h3 := h.fresh c' x y h1 h2
      cases l with
      | nil => rfl
      | cons z l => have := hl z List.mem_cons_self; rw [h3] at this; cases this
    · exact h.fresh c' x y h1 h2
  · intro x y c' h1 z hz
    simp only [setQ] at hz
    split at hz
    · rename_i e; obtain ⟨rfl, rfl⟩ := e; exact h.qOld _ _ _ h1 z (hl z hz)
    · exact h.qOld x y c' h1 z hz
  · intro x y c' hp h1 h2 t v hv
    rcases h.cov x y c' hp h1 h2 t v hv with h3 | h3 | h3 | ⟨z, h3, h4⟩
    · left; exact h3
    · right; left; exact h3
    · right; right; left; exact h3
    · by_cases e : c' = c ∧ x = b
      · obtain ⟨rfl, rfl⟩ := e
        rcases hlose y hp h1 h2 z h3 with h5 | h5
        · right; right; right
          exact ⟨z, by simp [setQ, h5], h4⟩
        · left; exact h5 t v h4 hv
      · right; right; right
        exact ⟨z, by simp only [setQ]; rw [if_neg e]; exact h3, h4⟩

/-- `b'` applies a topic sync of `b` that came on the connection it has registered. -/
theorem inv_applyTopic {n : LNet U B T} {k : Nat} (h : Inv P n k) (b b' : B) (c : Nat) (m : TopicSync T)
    (hc : n.conn b' b = some c) (ho : (n.conn b b' = some c) → Old (.topic m : SyncMsg U B T) (n.S b))
    (hun : n.spent c b = true) :
    Inv P (n.act b' (.applyTopicSync b m)) (k + 1) ∧
    (P c b b' → n.conn b b' = some c → ∀ t x, m.map.get t = some x → (n.S b).map.get t = some x →
      ∃ e, ((n.act b' (.applyTopicSync b m)).st b').brokers.get b = some e ∧
        e.topicSync.map.get t = some x) := by
  have hS := S_act_quiet n b' (.applyTopicSync b m) (by simp)
  have hne : b ≠ b' := (joins_ne h (h.reg _ _ _ hc).1).symm
  have hr : P c b b' → n.conn b b' = some c → _ := fun hp hk0 =>
    rinv_apply (n.st b') b (n.S b) m (h.view b b' c hp hc (Or.inl hk0)) (ho hk0 m rfl).1 (ho hk0 m rfl).2
  obtain ⟨e0, he0, _⟩ := (conn_iff n b' b c).1 hc
  have hst : (n.act b' (.applyTopicSync b m)).st b' = (n.st b').applyTopicSync b m := by
    rw [st_act_self]; rfl
  have hg : ∀ x y, ¬ (x = b' ∧ y = b) →
      ((n.act b' (.applyTopicSync b m)).st x).brokers.get y = (n.st x).brokers.get y ∧
      ∀ t, ((n.act b' (.applyTopicSync b m)).st x).bcBrokers.Bwd y t ↔ (n.st x).bcBrokers.Bwd y t := by
    intro x y hxy
    by_cases hx : x = b'
    · subst hx
      rw [st_act_self]
      have : b ≠ y := fun e => hxy ⟨rfl, e.symm⟩
      exact notAbout_step _ y (.applyTopicSync b m) (h.own x).index this
    · rw [st_act_ne _ _ _ hx]; exact ⟨rfl, fun _ => Iff.rfl⟩
  have hco : ∀ x y, (n.act b' (.applyTopicSync b m)).conn x y = n.conn x y := by
    intro x y
    unfold conn
    rw [st_act]; split
    · rename_i e; subst e; exact applyTopicSync_conn _ _ _ _
    · rfl
  have hcur : P c b b' → n.conn b b' = some c → ∃ e1, ((n.st b').applyTopicSync b m).brokers.get b = some e1 ∧
      ∀ t x, (e0.topicSync.map.get t = some x ∨ m.map.get t = some x) →
      (n.S b).map.get t = some x → e1.topicSync.map.get t = some x := by
    intro hp hk0
    obtain ⟨r1, r2⟩ := hr hp hk0
    obtain ⟨e1, he1, _⟩ := r1.view
    exact ⟨e1, he1, fun t x hor hx => r2 e0 e1 he0 he1 t x hx hor⟩
  refine ⟨⟨h.differ, own_act n b' _ h.own, ?_, h.fresh, h.held, ?_, ?_, ?_, ?_⟩, ?_⟩
  · intro x y c' h1; rw [hco] at h1; exact h.reg x y c' h1
  · intro x y c' hp h1 h2
    rw [hco] at h1 h2
    rw [hS]
    by_cases e : y = b' ∧ x = b
    · obtain ⟨rfl, rfl⟩ := e
      rw [hc] at h1; cases h1
      have h2 : n.conn x y = some c := h2.elim id (fun h3 => by
        have h3 : n.spent c x = false := h3
        rw [hun] at h3; cases h3)
      rw [hst]; exact (hr hp h2).1
    · exact rinv_congr (h.view x y c' hp h1 h2) (own_act n b' _ h.own y).index (hg y x e).1 (hg y x e).2
  · intro τ hi; rw [hS]; exact h.taskOld τ hi
  · intro x y c' h1 z hz; rw [hco] at h1; rw [hS]; exact h.qOld x y c' h1 z hz
  · intro x y c' hp h1 h2 t v hv
    rw [hco] at h1 h2
    rw [hS] at hv
    rcases h.cov x y c' hp h1 h2 t v hv with ⟨h5, e, h3, h4⟩ | h3
    · left
      refine ⟨by rw [hco]; exact h5, ?_⟩
      by_cases eq : y = b' ∧ x = b
      · obtain ⟨rfl, rfl⟩ := eq
        rw [hc] at h5; cases h5
        obtain ⟨e1, he1, hcur⟩ := hcur hp h1
        refine ⟨e1, by rw [hst]; exact he1, ?_⟩
        rw [he0] at h3; cases h3
        exact hcur t v (Or.inl h4) hv
      · exact ⟨e, by rw [(hg y x eq).1]; exact h3, h4⟩
    · right; exact h3
  · intro hp hk0 t x hm hx
    obtain ⟨e1, he1, hcur⟩ := hcur hp hk0
    exact ⟨e1, by rw [hst]; exact he1, hcur t x (Or.inr hm) hx⟩

/-- A user sync is handled, on whatever connection. -/
theorem inv_userFrame {n : LNet U B T} {k : Nat} (h : Inv P n k) (c : Nat) (b b' : B) (m : DirectMap U B)
    (rest : List (SyncMsg U B T)) (hq : n.q c b = .user m :: rest) :
    Inv P ((n.act b' (.applyUserSync m)).setQ c b rest) (k + 1) := by
  have h' := inv_quiet h b' (.applyUserSync m) (by simp) (fun _ => trivial)
  refine inv_pop h' c b rest (fun z hz => ?_) ?_
  · show z ∈ n.q c b
    rw [hq]; exact List.mem_cons_of_mem _ hz
  · intro _ _ _ _ z hz
    rw [show (n.act b' (.applyUserSync m)).q c b = n.q c b from rfl, hq] at hz
    rcases List.mem_cons.1 hz with rfl | h1
    · right; rintro t x ⟨m', e, _⟩; cases e
    · left; exact h1

theorem inv_deliver {n : LNet U B T} {k : Nat} (h : Inv P n k) (c : Nat) (b b' : B) :
    Inv P (n.step (.deliver c b b')) (k + 1) := by
  simp only [step]
  split
  · rename_i hc
    have hj := joins_symm (h.reg _ _ _ hc).1
    cases hq : n.q c b with
    | nil => exact h.mono (by omega)
    | cons m rest =>
      cases m with
      | user m => exact inv_userFrame h c b b' m rest hq
      | topic m =>
        simp only []
        have hun : n.spent c b = true := by
          cases hs : n.spent c b with
          | true => rfl
          | false => have := h.fresh c b b' hj hs; rw [hq] at this; cases this
        obtain ⟨h', hcur⟩ := inv_applyTopic h b b' c m hc
          (fun hk0 => h.qOld b b' c hk0 (.topic m) (by rw [hq]; exact List.mem_cons_self ..)) hun
        have hne : b ≠ b' := joins_ne h hj
        have hco : ∀ x y, (n.act b' (.applyTopicSync b m)).conn x y = n.conn x y := by
          intro x y
          unfold conn
          rw [st_act]; split
          · rename_i e; subst e; exact applyTopicSync_conn _ _ _ _
          · rfl
        refine inv_pop h' c b rest (fun z hz => ?_) ?_
        · show z ∈ n.q c b
          rw [hq]; exact List.mem_cons_of_mem _ hz
        · intro y hp h1 h2 z hz
          rw [hco] at h1
          have hy : y = b' := joins_other h (h.reg _ _ _ h1).1 hj
          subst hy
          rw [show (n.act y (.applyTopicSync b m)).q c b = n.q c b from rfl, hq] at hz
          rcases List.mem_cons.1 hz with rfl | h3
          · right
            rintro t x ⟨m', e, hx⟩ hS
            cases e
            rw [S_act_quiet n y _ (by simp)] at hS
            exact ⟨by rw [hco]; exact hc, hcur hp h1 t x hx hS⟩
          · left; exact h3
  · exact h.mono (by omega)

theorem inv_strayUser {n : LNet U B T} {k : Nat} (h : Inv P n k) (c : Nat) (b b' : B) :
    Inv P (n.step (.strayUser c b b')) (k + 1) := by
  simp only [step]
  split
  · split
    · rename_i m rest hq
      exact inv_userFrame h c b b' m rest hq
    · exact h.mono (by omega)
  · exact h.mono (by omega)

/-- A topic sync of `b` is handled by `b'` on a connection that it has not registered: what is known about the other
pairs is kept, and about connections between these two that `P` leaves out. -/
theorem inv_strayTopic {n : LNet U B T} {k : Nat} (h : Inv P n k) (c : Nat) (b b' : B)
    (hP : n.conn b' b ≠ some c → ¬ P c b b' ∧ ∀ c', n.conn b' b = some c' → ¬ P c' b b') :
    Inv P (n.step (.strayTopic c b b')) (k + 1) := by
  simp only [step]
  split
  · rename_i hj
    obtain ⟨hj, hcn, _⟩ := hj
    obtain ⟨hP1, hP2⟩ := hP hcn
    split
    · rename_i m rest hq
      have hS := S_act_quiet n b' (.applyTopicSync b m) (by simp)
      have hg : ∀ x y, ¬ (x = b' ∧ y = b) →
          ((n.act b' (.applyTopicSync b m)).st x).brokers.get y = (n.st x).brokers.get y ∧
          ∀ t, ((n.act b' (.applyTopicSync b m)).st x).bcBrokers.Bwd y t ↔ (n.st x).bcBrokers.Bwd y t := by
        intro x y hxy
        by_cases hx : x = b'
        · subst hx
          rw [st_act_self]
          have : b ≠ y := fun e => hxy ⟨rfl, e.symm⟩
          exact notAbout_step _ y (.applyTopicSync b m) (h.own x).index this
        · rw [st_act_ne _ _ _ hx]; exact ⟨rfl, fun _ => Iff.rfl⟩
      have hco : ∀ x y, (n.act b' (.applyTopicSync b m)).conn x y = n.conn x y := by
        intro x y
        unfold conn
        rw [st_act]; split
        · rename_i e; subst e; exact applyTopicSync_conn _ _ _ _
        · rfl
      have h' : Inv P (n.act b' (.applyTopicSync b m)) (k + 1) := by
        refine ⟨h.differ, own_act n b' _ h.own, ?_, h.fresh, h.held, ?_, ?_, ?_, ?_⟩
        · intro x y c' h1; rw [hco] at h1; exact h.reg x y c' h1
        · intro x y c' hp h1 h2
          rw [hco] at h1 h2
          rw [hS]
          by_cases e : y = b' ∧ x = b
          · obtain ⟨rfl, rfl⟩ := e
            exact absurd hp (hP2 c' h1)
          · exact rinv_congr (h.view x y c' hp h1 h2) (own_act n b' _ h.own y).index (hg y x e).1 (hg y x e).2
        · intro τ hi; rw [hS]; exact h.taskOld τ hi
        · intro x y c' h1 z hz; rw [hco] at h1; rw [hS]; exact h.qOld x y c' h1 z hz
        · intro x y c' hp h1 h2 t v hv
          rw [hco] at h1 h2
          rw [hS] at hv
          rcases h.cov x y c' hp h1 h2 t v hv with ⟨h5, e, h3, h4⟩ | h3
          · left
            refine ⟨by rw [hco]; exact h5, ?_⟩
            by_cases eq : y = b' ∧ x = b
            · obtain ⟨rfl, rfl⟩ := eq
              exact absurd hp (hP2 c' h5)
            · exact ⟨e, by rw [(hg y x eq).1]; exact h3, h4⟩
          · right; exact h3
      refine inv_pop h' c b rest (fun z hz => ?_) ?_
      · show z ∈ n.q c b
        rw [hq]; exact List.mem_cons_of_mem _ hz
      · intro y hp h1 _ _ _
        rw [hco] at h1
        have hy : y = b' := joins_other h (h.reg _ _ _ h1).1 hj
        subst hy
        exact absurd hp hP1
    · exact h.mono (by omega)
  · exact h.mono (by omega)

/-- A restart: nobody is linked with `b` afterwards. -/
theorem inv_restart {n : LNet U B T} {k : Nat} (h : Inv P n k) (b : B) :
    Inv P (n.step (.restart b)) k := by
  have hst : ∀ x, (n.step (.restart b)).st x = if x = b then Conns.new b else n.st x := fun _ => rfl
  have hcn : ∀ x y c, (n.step (.restart b)).conn x y = some c → x ≠ b ∧ n.conn x y = some c := by
    intro x y c h1
    unfold conn at h1
    rw [hst] at h1
    split at h1
    · cases h1
    · rename_i e; exact ⟨e, h1⟩
  have hS : ∀ x, x ≠ b → (n.step (.restart b)).S x = n.S x := by
    intro x hx; unfold S; rw [hst, if_neg hx]
  have hsp : ∀ c x, (n.step (.restart b)).spent c x = if x = b then true else n.spent c x := fun _ _ => rfl
  have hmem : ∀ τ ∈ (n.step (.restart b)).tasks, τ ∈ n.tasks ∧ τ.here ≠ b := by
    intro τ hτ
    have hτ : τ ∈ n.tasks.filter (fun τ => τ.here ≠ b) := hτ
    rw [List.mem_filter] at hτ
    exact ⟨hτ.1, by simpa using hτ.2⟩
  have hcond : ∀ x y c, ((n.step (.restart b)).conn x y = some c ∨ (n.step (.restart b)).spent c x = false) →
      x ≠ b ∧ (n.conn x y = some c ∨ n.spent c x = false) := by
    intro x y c h1
    rcases h1 with h1 | h1
    · obtain ⟨h2, h3⟩ := hcn _ _ _ h1; exact ⟨h2, Or.inl h3⟩
    · rw [hsp] at h1
      split at h1
      · cases h1
      · rename_i e; exact ⟨e, Or.inr h1⟩
  refine ⟨h.differ, ?_, ?_, ?_, ?_, ?_, ?_, ?_, ?_⟩
  · intro x; rw [hst]; split
    · exact (tinv_new b).mono (by omega)
    · exact h.own x
  · intro x y c h1
    obtain ⟨h2, h3⟩ := hcn _ _ _ h1
    obtain ⟨h4, h5⟩ := h.reg _ _ _ h3
    exact ⟨h4, by rw [hsp, if_neg h2]; exact h5⟩
  · intro c x y h1 h2
    rw [hsp] at h2
    split at h2
    · cases h2
    · exact h.fresh c x y h1 h2
  · intro τ hτ d c h1
    obtain ⟨h2, h3⟩ := hmem τ hτ
    obtain ⟨h4, h5⟩ := h.held τ h2 d c h1
    exact ⟨h4, by rw [hsp, if_neg h3]; exact h5⟩
  · intro x y c hp h1 h2
    obtain ⟨n2, h1⟩ := hcn _ _ _ h1
    obtain ⟨n1, h2⟩ := hcond _ _ _ h2
    rw [hS _ n1, hst, if_neg n2]
    exact h.view x y c hp h1 h2
  · intro τ hτ
    obtain ⟨h2, h3⟩ := hmem τ hτ
    rw [hS _ h3]; exact h.taskOld τ h2
  · intro x y c h1 m hm
    obtain ⟨n1, h1⟩ := hcn _ _ _ h1
    rw [hS _ n1]; exact h.qOld x y c h1 m hm
  · intro x y c hp h1 h2 t v hv
    obtain ⟨n1, h1⟩ := hcn _ _ _ h1
    obtain ⟨n2, h2⟩ := hcond _ _ _ h2
    rw [hS _ n1] at hv
    rcases h.cov x y c hp h1 h2 t v hv with ⟨h5, e, h3, h4⟩ | h3 | ⟨τ, h3, h4, h5⟩ | h3
    · left
      refine ⟨?_, e, by rw [hst, if_neg n2]; exact h3, h4⟩
      unfold conn; rw [hst, if_neg n2]; exact h5
    · right; left
      show _ ∈ n.fullT.filter _
      rw [List.mem_filter]; exact ⟨h3, by simpa using n1⟩
    · right; right; left
      refine ⟨τ, ?_, h4, h5⟩
      show τ ∈ n.tasks.filter _
      rw [List.mem_filter]; exact ⟨h3, by simpa [h4] using n1⟩
    · right; right; right; exact h3

/-- Every step keeps the invariant, except handling a topic sync on a connection that is not registered, where `P`
still vouches for that connection or for the registered one. -/
theorem inv_step {n : LNet U B T} {k : Nat} (h : Inv P n k) (hk : k + 1 < 2 ^ 64)
    (l : LLabel U B T) (hl : ∀ c b b', l = .strayTopic c b b' → n.conn b' b ≠ some c →
      ¬ P c b b' ∧ ∀ c', n.conn b' b = some c' → ¬ P c' b b') : Inv P (n.step l) (k + 1) := by
  cases l with
  | connect b u hd ts => exact inv_quiet h b (.addUser u hd ts) (by simp) (fun _ => trivial)
  | disconnect b u => exact inv_quiet h b (.removeUser u) (by simp) (fun _ => trivial)
  | subscribe b u ts => exact inv_quiet h b (.subscribeUser u ts) (by simp) (fun _ => trivial)
  | unsubscribe b u ts => exact inv_quiet h b (.unsubscribeUser u ts) (by simp) (fun _ => trivial)
  | startTopic b => exact inv_startTopic h hk b
  | startUser b =>
    have h' := inv_quiet h b .partialUserSync (by simp) (fun _ => trivial)
    simp only [step]
    cases (n.st b).getPartialUserSync.2 with
    | none => exact h'
    | some m => exact inv_spawn h' ⟨b, .user m, none, none⟩ rfl (fun m' e => nomatch e)
  | readDests i => exact (inv_readDests h i).mono (by omega)
  | lookup i => exact (inv_lookup h i).mono (by omega)
  | push i ok => exact inv_push h i ok
  | authenticated c b b' => exact (inv_authenticated h c b b').mono (by omega)
  | register c b b' => exact inv_register h c b b'
  | fullTopic b b' => exact (inv_fullTopic h b b').mono (by omega)
  | fullUser b b' => exact (inv_fullUser h b b').mono (by omega)
  | drop b b' => exact inv_remove h b b'
  | deliver c b b' => exact inv_deliver h c b b'
  | strayUser c b b' => exact inv_strayUser h c b b'
  | strayTopic c b b' => exact inv_strayTopic h c b b' (hl c b b' rfl)
  | restart b => exact (inv_restart h b).mono (by omega)

theorem inv_run {n : LNet U B T} {k : Nat} (h : Inv P n k) (ls : List (LLabel U B T))
    (hl : ∀ p l, p ++ [l] <+: ls → ∀ c b b', l = .strayTopic c b b' → (n.run p).conn b' b ≠ some c →
      ¬ P c b b' ∧ ∀ c', (n.run p).conn b' b = some c' → ¬ P c' b b')
    (hk : k + ls.length < 2 ^ 64) : Inv P (n.run ls) (k + ls.length) := by
  induction ls generalizing n k with
  | nil => exact h
  | cons l ls ih =>
    rw [List.length_cons] at hk
    have := ih (inv_step h (by omega) l (hl [] l ⟨ls, rfl⟩))
      (fun p l' hm => hl (l :: p) l' (by
        obtain ⟨r, hr⟩ := hm
        exact ⟨r, by rw [← hr]; rfl⟩)) (by omega)
    rw [List.length_cons, show k + (ls.length + 1) = k + 1 + ls.length by omega]
    exact this

end Verif.LNet

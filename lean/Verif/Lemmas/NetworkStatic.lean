import Verif.Lemmas.Network

/-!
# Conservation and order of messages while routing tables do not change
-/

set_option linter.unusedSectionVars false

namespace Verif.Net
open Verif Verif.Conns Verif.Broker

variable {B H σ : Type} [DecidableEq B] [DecidableEq H] [LT B] [DecidableLT B]

/-- Both hooks are the no-op hook (def.rs:94-97 `NoMessageHook`, the hook of the production
configuration). -/
def Transparent (cfg : Cfg B σ) : Prop :=
  ∀ h m, cfg.userHook h m = (h, m, .process) ∧ cfg.brokerHook h m = (h, m, .process)

/-- A frame with a direct message, or a broadcast with at least one valid topic. -/
def Good (cfg : Cfg B σ) (raw : Bytes) : Prop :=
  match cfg.decode raw with
  | some (.direct _ _) => True
  | some (.broadcast ts _) => ∃ t ∈ ts, cfg.valid t = true
  | _ => False

/-- Destinations of a frame, with no-op hooks. -/
def dests (cfg : Cfg B σ) (s : Table B H) (frm : Dest B) (raw : Bytes) : List (Dest B) :=
  match cfg.decode raw, frm with
  | some (.direct r _), .user _ => directDests s r false
  | some (.direct r _), .broker _ => directDests s r true
  | some (.broadcast ts _), .user _ => broadcastDests s (prune cfg.valid ts).1 false
  | some (.broadcast ts _), .broker _ => broadcastDests s ts true
  | _, _ => []

theorem mem_dedup' (l : List Topic) (t : Topic) : t ∈ dedup l ↔ t ∈ l := by
  fun_induction dedup l with
  | case1 => exact Iff.rfl
  | case2 a => exact Iff.rfl
  | case3 b l ih => rw [ih]; simp
  | case4 a b l hab ih => rw [List.mem_cons, ih, List.mem_cons (a := t) (b := a)]

theorem mem_prune (valid : Topic → Bool) (ts : List Topic) (t : Topic) :
    t ∈ (prune valid ts).1 ↔ t ∈ ts ∧ valid t = true := by
  simp only [prune, List.mem_filter, mem_dedup']

theorem prune_ok' (valid : Topic → Bool) (ts : List Topic) :
    (prune valid ts).2 = true ↔ ∃ t ∈ ts, valid t = true := by
  simp only [prune, Bool.not_eq_true', List.isEmpty_eq_false_iff_exists_mem, List.mem_filter,
    mem_dedup']

theorem route_good (cfg : Cfg B σ) (hT : Transparent cfg) (s : Table B H) (h : σ) (frm : Dest B)
    (raw : Bytes) (hg : Good cfg raw) :
    route cfg s h frm raw = (h, dests cfg s frm raw, true) := by
  unfold Good at hg
  unfold route dests
  cases frm with
  | user u =>
    simp only [userRoute]
    cases hd : cfg.decode raw with
    | none => rw [hd] at hg; exact hg.elim
    | some m =>
      rw [hd] at hg
      simp only [(hT h m).1]
      cases m with
      | direct r d => rfl
      | broadcast ts d =>
        simp only at hg ⊢
        rw [if_pos ((prune_ok' cfg.valid ts).2 hg)]
      | _ => exact hg.elim
  | broker b =>
    simp only [brokerRoute]
    cases hd : cfg.decode raw with
    | none => rw [hd] at hg; exact hg.elim
    | some m =>
      rw [hd] at hg
      simp only [(hT h m).2]
      cases m with
      | direct r d => rfl
      | broadcast ts d => rfl
      | _ => exact hg.elim

theorem dests_broker_users_only (cfg : Cfg B σ) (s : Table B H) (b b' : B) (raw : Bytes) :
    Dest.broker b' ∉ dests cfg s (.broker b) raw := by
  unfold dests
  cases cfg.decode raw with
  | none => simp
  | some m =>
    cases m with
    | direct r d =>
      simp only [directDests]
      cases s.getBrokerOfUser r with
      | none => simp
      | some b' => simp only; split <;> simp
    | broadcast ts d => simp only; rw [broker_mem_broadcastDests]; simp
    | _ => simp

theorem nodup_dests (cfg : Cfg B σ) (s : Table B H) (frm : Dest B) (raw : Bytes) :
    (dests cfg s frm raw).Nodup := by
  have hdir : ∀ r o, (directDests s r o).Nodup := by
    intro r o
    unfold directDests
    cases s.getBrokerOfUser r with
    | none => exact List.nodup_nil
    | some b =>
      simp only
      split
      · simp
      · split <;> simp
  unfold dests
  cases hd : cfg.decode raw with
  | none => exact List.nodup_nil
  | some m =>
    cases frm <;> cases m <;>
      first | exact List.nodup_nil | exact hdir _ _ | exact nodup_broadcastDests _ _ _

section weights
variable (cfg : Cfg B σ) (tab : B → Table B H) (u : Bytes)

/-- Does a send to `d` at broker `b` hand a copy to user `u`? (0 or 1) -/
def wLast (b : B) : Dest B → Nat
  | .user u' => if u' = u ∧ ((tab b).getUserConnection u').isSome then 1 else 0
  | .broker _ => 0

/-- Copies for `u` caused by a frame arriving at `b` from a broker. -/
def wB (b b0 : B) (raw : Bytes) : Nat := ((dests cfg (tab b) (.broker b0) raw).map (wLast tab u b)).sum

/-- Copies for `u` caused by a send to `d` at broker `b`. -/
def wPend (b : B) (raw : Bytes) : Dest B → Nat
  | .user u' => wLast tab u b (.user u')
  | .broker b' => if ((tab b).getBrokerConnection b').isSome then wB cfg tab u b' b raw else 0

/-- Copies for `u` caused by a frame arriving at `b` on connection `frm`. -/
def wWire (b : B) (frm : Dest B) (raw : Bytes) : Nat :=
  ((dests cfg (tab b) frm raw).map (wPend cfg tab u b raw)).sum

theorem wWire_broker (b b0 : B) (raw : Bytes) :
    wWire cfg tab u b (.broker b0) raw = wB cfg tab u b b0 raw := by
  unfold wWire wB
  congr 1
  apply List.map_congr_left
  intro d hd
  cases d with
  | user u' => rfl
  | broker b' => exact absurd hd (dests_broker_users_only cfg _ _ _ _)

end weights

theorem sum_split {A : Type} (f : A → Nat) (l1 l2 : List A) (a : A) :
    ((l1 ++ a :: l2).map f).sum = ((l1 ++ l2).map f).sum + f a := by
  simp only [List.map_append, List.map_cons, List.sum_append, List.sum_cons]; omega

/-- Sum of a function over a list without repetitions that vanishes off one element. -/
theorem sum_single {A : Type} (f : A → Nat) (l : List A) (hnd : l.Nodup) (a : A)
    (h : ∀ x ∈ l, x ≠ a → f x = 0) : (a ∈ l → (l.map f).sum = f a) ∧ (a ∉ l → (l.map f).sum = 0) := by
  induction l with
  | nil => simp
  | cons x l ih =>
    rw [List.nodup_cons] at hnd
    obtain ⟨h1, h2⟩ := ih hnd.2 (fun y hy => h y (List.mem_cons_of_mem _ hy))
    rw [List.map_cons, List.sum_cons]
    by_cases hx : x = a
    · subst hx
      constructor
      · intro _; rw [h2 hnd.1]; simp
      · intro hn; simp at hn
    · have h0 := h x (by simp) hx
      constructor
      · intro hm
        rcases List.mem_cons.1 hm with e | hm
        · exact absurd e.symm hx
        · rw [h1 hm, h0]; simp
      · intro hm
        rw [h2 (fun h => hm (List.mem_cons_of_mem _ h)), h0]

/-! ## Conservation -/

/-- Labels while tables do not change and no send fails. -/
def Static (cfg : Cfg B σ) : Label B H → Prop
  | .publish _ _ _ raw => Good cfg raw
  | .originate _ _ _ _ => False
  | .take _ _ => True
  | .send _ _ ok => ok = true
  | .setTable _ _ => False

structure StaticInv (cfg : Cfg B σ) (tab : B → Table B H) (n : Net B H σ) : Prop where
  tab : n.tab = tab
  wire : ∀ i ∈ n.wire, Good cfg i.pkt.raw
  pend : ∀ t ∈ n.pend, Good cfg t.pkt.raw

/-- Copies of message `k` user `u` has received or will receive from what is in flight. -/
def total (cfg : Cfg B σ) (u : Bytes) (k : Nat) (n : Net B H σ) : Nat :=
  n.inbox.countP (fun e => e.1 = u ∧ e.2.id = k) +
  (n.wire.map (fun i => if i.pkt.id = k then wWire cfg n.tab u i.here i.frm i.pkt.raw else 0)).sum +
  (n.pend.map (fun t => if t.pkt.id = k then wPend cfg n.tab u t.here t.pkt.raw t.dest else 0)).sum

/-- Copies the message of a label will cause. -/
def created (cfg : Cfg B σ) (tab : B → Table B H) (u : Bytes) (k : Nat) : Label B H → Nat
  | .publish b a id raw => if id = k then wWire cfg tab u b (.user a) raw else 0
  | _ => 0

theorem take_good (cfg : Cfg B σ) (hT : Transparent cfg) (n : Net B H σ) (b : B) (frm : Dest B)
    (hg : ∀ i ∈ n.wire, Good cfg i.pkt.raw) :
    n.step cfg (.take b frm) = n ∨
    (n.pend.any (Todo.for' b frm) = false ∧ ∃ i l1 l2, n.wire = l1 ++ i :: l2 ∧
      i.here = b ∧ i.frm = frm ∧ (∀ x ∈ l1, Item.for' b frm x = false) ∧
      ∃ hook', n.step cfg (.take b frm) =
        { n with hook := hook', wire := l1 ++ l2,
                 pend := n.pend ++ (dests cfg (n.tab b) frm i.pkt.raw).map
                   (fun d => ⟨b, frm, i.pkt, d⟩) }) := by
  simp only [step]
  split
  · exact Or.inl rfl
  · rename_i hp
    cases hf : n.wire.find? (Item.for' b frm) with
    | none => exact Or.inl rfl
    | some i =>
      right
      obtain ⟨l1, l2, e, hpi, hl1, hera⟩ := find?_split hf
      obtain ⟨h1, h2⟩ := item_for hpi
      have hgi := hg i (List.mem_of_find?_eq_some hf)
      refine ⟨by simpa using hp, i, l1, l2, e, h1, h2, hl1, ?_⟩
      simp only [route_good cfg hT _ _ _ _ hgi, if_true, hera]
      exact ⟨_, rfl⟩

theorem send_cases (cfg : Cfg B σ) (n : Net B H σ) (b : B) (frm : Dest B) :
    (n.step cfg (.send b frm true) = n ∧ n.pend.any (Todo.for' b frm) = false) ∨
    (∃ t l1 l2, n.pend = l1 ++ t :: l2 ∧ t.here = b ∧ t.frm = frm ∧
      (∀ x ∈ l1, Todo.for' b frm x = false) ∧
      ((lookup (n.tab b) t.dest = none ∧
          n.step cfg (.send b frm true) = { n with pend := l1 ++ l2 }) ∨
       ((lookup (n.tab b) t.dest).isSome ∧ ∃ u, t.dest = .user u ∧
          n.step cfg (.send b frm true) =
            { n with pend := l1 ++ l2, inbox := n.inbox ++ [(u, t.pkt)] }) ∨
       ((lookup (n.tab b) t.dest).isSome ∧ ∃ b', t.dest = .broker b' ∧
          n.step cfg (.send b frm true) =
            { n with pend := l1 ++ l2,
                     wire := n.wire ++ [⟨b', .broker b,
                       { t.pkt with hops := t.pkt.hops + 1 }⟩] }))) := by
  simp only [step]
  cases hf : n.pend.find? (Todo.for' b frm) with
  | none =>
    left
    refine ⟨rfl, ?_⟩
    rw [List.find?_eq_none] at hf
    rw [List.any_eq_false]
    exact hf
  | some t =>
    right
    obtain ⟨l1, l2, e, hpt, hl1, hera⟩ := find?_split hf
    obtain ⟨h1, h2⟩ := todo_for hpt
    refine ⟨t, l1, l2, e, h1, h2, hl1, ?_⟩
    simp only [hera]
    cases hl : lookup (n.tab b) t.dest with
    | none => left; exact ⟨rfl, rfl⟩
    | some c =>
      right
      cases hd : t.dest with
      | user u => left; exact ⟨rfl, u, rfl, rfl⟩
      | broker b' => right; exact ⟨rfl, b', rfl, rfl⟩

theorem staticInv_step (cfg : Cfg B σ) (hT : Transparent cfg) (tab : B → Table B H) (n : Net B H σ)
    (h : StaticInv cfg tab n) (l : Label B H) (hl : Static cfg l) :
    StaticInv cfg tab (n.step cfg l) := by
  cases l with
  | publish b u id raw =>
    refine ⟨h.tab, ?_, h.pend⟩
    intro i hi
    simp only [step, List.mem_append, List.mem_singleton] at hi
    rcases hi with hi | rfl
    · exact h.wire i hi
    · exact hl
  | originate => exact hl.elim
  | setTable => exact hl.elim
  | take b frm =>
    rcases take_good cfg hT n b frm h.wire with e | ⟨_, i, l1, l2, e, _, _, _, hook', e'⟩
    · rw [e]; exact h
    · rw [e']
      have hi : i ∈ n.wire := by rw [e]; simp
      refine ⟨h.tab, ?_, ?_⟩
      · intro j hj; apply h.wire; rw [e]
        simp only [List.mem_append, List.mem_cons] at hj ⊢
        rcases hj with hj | hj
        · exact Or.inl hj
        · exact Or.inr (Or.inr hj)
      · intro t ht
        simp only [List.mem_append, List.mem_map] at ht
        rcases ht with ht | ⟨d, _, rfl⟩
        · exact h.pend t ht
        · exact h.wire i hi
  | send b frm ok =>
    have hok : ok = true := hl
    subst hok
    rcases send_cases cfg n b frm with ⟨e, _⟩ | ⟨t, l1, l2, e, _, _, _, hcase⟩
    · rw [e]; exact h
    · have ht : t ∈ n.pend := by rw [e]; simp
      have hp : ∀ x ∈ l1 ++ l2, Good cfg x.pkt.raw := by
        intro x hx; apply h.pend; rw [e]
        simp only [List.mem_append, List.mem_cons] at hx ⊢
        rcases hx with hx | hx
        · exact Or.inl hx
        · exact Or.inr (Or.inr hx)
      rcases hcase with ⟨_, e'⟩ | ⟨_, u, _, e'⟩ | ⟨_, b', _, e'⟩
      · rw [e']; exact ⟨h.tab, h.wire, hp⟩
      · rw [e']; exact ⟨h.tab, h.wire, hp⟩
      · rw [e']
        refine ⟨h.tab, ?_, hp⟩
        intro i hi
        simp only [List.mem_append, List.mem_singleton] at hi
        rcases hi with hi | rfl
        · exact h.wire i hi
        · exact h.pend t ht

theorem total_step (cfg : Cfg B σ) (hT : Transparent cfg) (tab : B → Table B H) (n : Net B H σ)
    (h : StaticInv cfg tab n) (l : Label B H) (hl : Static cfg l) (u : Bytes) (k : Nat) :
    total cfg u k (n.step cfg l) = total cfg u k n + created cfg tab u k l := by
  have htab := h.tab
  cases l with
  | publish b a id raw =>
    unfold total created
    simp only [step, List.map_append, List.sum_append, List.map_cons, List.map_nil, List.sum_cons,
      List.sum_nil, htab]
    omega
  | originate => exact hl.elim
  | setTable => exact hl.elim
  | take b frm =>
    rcases take_good cfg hT n b frm h.wire with e | ⟨_, i, l1, l2, e, hb, hfr, _, hook', e'⟩
    · rw [e]; simp [created]
    · rw [e']
      unfold total created
      simp only
      rw [e, sum_split, List.map_append (l₁ := n.pend), List.sum_append, List.map_map]
      have : (List.map ((fun t : Todo B => if t.pkt.id = k then
            wPend cfg n.tab u t.here t.pkt.raw t.dest else 0) ∘
            fun d => (⟨b, frm, i.pkt, d⟩ : Todo B)) (dests cfg (n.tab b) frm i.pkt.raw)).sum =
          (if i.pkt.id = k then wWire cfg n.tab u i.here i.frm i.pkt.raw else 0) := by
        by_cases hk : i.pkt.id = k
        · rw [if_pos hk, hb, hfr]
          unfold wWire
          congr 1
          apply List.map_congr_left
          intro d _
          simp [hk]
        · rw [if_neg hk]
          generalize dests cfg (n.tab b) frm i.pkt.raw = ds
          induction ds with
          | nil => rfl
          | cons d ds ih => rw [List.map_cons, List.sum_cons, ih]; simp [hk]
      rw [this]
      omega
  | send b frm ok =>
    have hok : ok = true := hl
    subst hok
    rcases send_cases cfg n b frm with ⟨e, _⟩ | ⟨t, l1, l2, e, hb, hfr, _, hcase⟩
    · rw [e]; simp [created]
    · rcases hcase with ⟨hn, e'⟩ | ⟨hs, u', hd, e'⟩ | ⟨hs, b', hd, e'⟩
      · rw [e']
        unfold total created
        simp only
        rw [e, sum_split]
        have : wPend cfg n.tab u t.here t.pkt.raw t.dest = 0 := by
          rw [hb]
          cases hd : t.dest with
          | user u' =>
            rw [hd] at hn
            simp only [lookup] at hn
            simp [wPend, wLast, hn]
          | broker b' =>
            rw [hd] at hn
            simp only [lookup] at hn
            simp [wPend, hn]
        rw [this]; simp
      · rw [e']
        unfold total created
        simp only
        rw [e, sum_split, List.countP_append, List.countP_singleton]
        rw [hd] at hs
        simp only [lookup] at hs
        have : wPend cfg n.tab u t.here t.pkt.raw t.dest = if u' = u then 1 else 0 := by
          rw [hd, hb]; simp [wPend, wLast, hs]
        rw [this]
        by_cases h1 : u' = u <;> by_cases h2 : t.pkt.id = k <;> simp [h1, h2] <;> omega
      · rw [e']
        unfold total created
        simp only
        rw [e, sum_split (l1 := l1), List.map_append (l₁ := n.wire), List.sum_append]
        rw [hd] at hs
        simp only [lookup] at hs
        have : wPend cfg n.tab u t.here t.pkt.raw t.dest =
            wWire cfg n.tab u b' (.broker b) t.pkt.raw := by
          rw [hd, hb, wWire_broker]; simp [wPend, hs]
        rw [this]
        simp only [List.map_cons, List.map_nil, List.sum_cons, List.sum_nil]
        omega

theorem total_run (cfg : Cfg B σ) (hT : Transparent cfg) (tab : B → Table B H)
    (ls : List (Label B H)) (n : Net B H σ) (h : StaticInv cfg tab n)
    (hl : ∀ l ∈ ls, Static cfg l) (u : Bytes) (k : Nat) :
    StaticInv cfg tab (n.run cfg ls) ∧
    total cfg u k (n.run cfg ls) = total cfg u k n + (ls.map (created cfg tab u k)).sum := by
  induction ls generalizing n with
  | nil => exact ⟨h, by simp [run]⟩
  | cons l ls ih =>
    have h1 := staticInv_step cfg hT tab n h l (hl l (by simp))
    have h2 := total_step cfg hT tab n h l (hl l (by simp)) u k
    obtain ⟨h3, h4⟩ := ih _ h1 (fun l hm => hl l (by simp [hm]))
    rw [run_cons]
    refine ⟨h3, ?_⟩
    rw [h4, h2, List.map_cons, List.sum_cons]; omega

theorem staticInv_start (cfg : Cfg B σ) (tab : B → Table B H) (hook : B → Dest B → σ) :
    StaticInv cfg tab (start tab hook) := ⟨rfl, by simp [start], by simp [start]⟩

end Verif.Net

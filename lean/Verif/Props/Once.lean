import Verif.Lemmas.NetworkOrder
import Verif.Props.Network
import Verif.Props.Client

/-!
# C106: how often one message is read

A publication is followed from the client's `send_message` to the readers, whatever happens to routing tables, users and
connections meanwhile.
-/

set_option linter.unusedSectionVars false

namespace Verif.Props.Once
open Verif Verif.Net Verif.Conns Verif.Broker Verif.Props.Network

variable {B H σ : Type} [DecidableEq B] [DecidableEq H] [LT B] [DecidableLT B]

/-- Who hands a message to a user in this step. -/
def giver : Label B H → Option B
  | .send b _ _ => some b
  | _ => none

/-- What is handed to users during a run: by which broker, to whom, which message. -/
def handed (cfg : Cfg B σ) : Net B H σ → List (Label B H) → List (B × Bytes × Pkt)
  | _, [] => []
  | n, l :: ls =>
    (match giver l with
      | some b => ((n.step cfg l).inbox.drop n.inbox.length).map fun e => (b, e)
      | none => []) ++ handed cfg (n.step cfg l) ls

/-- Message `k` enters the network once, as a message `raw` of user `a` at broker `b0`. -/
def PublishedOnce (k : Nat) (b0 : B) (a raw : Bytes) (ls : List (Label B H)) : Prop :=
  ls.filter (publishes k) = [.publish b0 a k raw] ∧ ∀ b b' r, Label.originate b b' k r ∉ ls

/-- Broker `b` never has a connection to itself. -/
def NeverItself (b : B) (tab : B → Table B H) (ls : List (Label B H)) : Prop :=
  (tab b).getBrokerConnection b = none ∧ ∀ s, Label.setTable b s ∈ ls → s.getBrokerConnection b = none

/-! ## Weights -/

theorem sum_append {A : Type} (f : A → Nat) (l l' : List A) :
    ((l ++ l').map f).sum = (l.map f).sum + (l'.map f).sum := by
  rw [List.map_append, List.sum_append]

theorem sum_sublist {A : Type} (f : A → Nat) {l l' : List A} (h : l.Sublist l') : (l.map f).sum ≤ (l'.map f).sum := by
  induction h with
  | slnil => exact Nat.le_refl _
  | cons a _ ih => rw [List.map_cons, List.sum_cons]; omega
  | cons_cons a _ ih => rw [List.map_cons, List.sum_cons, List.map_cons, List.sum_cons]; omega

theorem sum_zero {A : Type} (f : A → Nat) (l : List A) (h : ∀ a ∈ l, f a = 0) : (l.map f).sum = 0 := by
  induction l with
  | nil => rfl
  | cons a l ih =>
    rw [List.map_cons, List.sum_cons, h a (by simp), ih (fun x hx => h x (List.mem_cons_of_mem _ hx))]

/-- Among distinct destinations at most one is `d`. -/
theorem sum_one {D : Type} [DecidableEq D] (l : List D) (hl : l.Nodup) (d : D) (f : D → Nat)
    (hf : ∀ x, f x ≤ if x = d then 1 else 0) : (l.map f).sum ≤ 1 := by
  induction l with
  | nil => exact Nat.zero_le _
  | cons a l ih =>
    rw [List.nodup_cons] at hl
    rw [List.map_cons, List.sum_cons]
    have ha := hf a
    by_cases e : a = d
    · rw [if_pos e] at ha
      rw [sum_zero f l (fun x hx => by
        have := hf x
        rw [if_neg (by rintro rfl; exact hl.1 (e ▸ hx))] at this
        omega)]
      omega
    · rw [if_neg e] at ha
      have := ih hl.2
      omega

/-- A message `k` of `a` published at `b0` is at `b0`, in the loop of `a`, or at another broker, in the loop of `b0`. -/
def Where (k : Nat) (b0 : B) (a raw : Bytes) (here : B) (frm : Dest B) (p : Pkt) : Prop :=
  p.id = k → p.raw = raw ∧ (here = b0 ∧ frm = .user a ∨ here ≠ b0 ∧ frm = .broker b0)

structure OnceInv (k : Nat) (b0 : B) (a raw : Bytes) (n : Net B H σ) : Prop where
  self : (n.tab b0).getBrokerConnection b0 = none
  wire : ∀ i ∈ n.wire, Where k b0 a raw i.here i.frm i.pkt
  pend : ∀ t ∈ n.pend, Where k b0 a raw t.here t.frm t.pkt

section
variable (k : Nat) (b0 : B) (a raw : Bytes) (wi : Item B → Nat) (wt : Todo B → Nat) (wg : B × Bytes × Pkt → Nat)

/-- How much of message `k` is under way. -/
def pot (n : Net B H σ) : Nat := (n.wire.map wi).sum + (n.pend.map wt).sum

/-- No step makes more of message `k` than there was. -/
structure Weights (cfg : Cfg B σ) (H : Type) [DecidableEq H] : Prop where
  other : ∀ i, i.pkt.id ≠ k → wi i = 0
  first : ∀ i, i.pkt.id = k → wi i ≤ 1
  take : ∀ (i : Item B) (s : Table B H) (h : σ), Where k b0 a raw i.here i.frm i.pkt →
    ((route cfg s h i.frm i.pkt.raw).2.1.map fun d => wt ⟨i.here, i.frm, i.pkt, d⟩).sum ≤ wi i
  give : ∀ (t : Todo B) (u : Bytes), t.dest = .user u → wg (t.here, u, t.pkt) ≤ wt t
  pass : ∀ (t : Todo B) (b' : B), Where k b0 a raw t.here t.frm t.pkt → t.dest = .broker b' →
    (∀ x, t.frm ≠ .broker x) → (t.here = b0 → b' ≠ b0) →
    wi ⟨b', .broker t.here, { t.pkt with hops := t.pkt.hops + 1 }⟩ ≤ wt t

theorem once_step (cfg : Cfg B σ) (hw : Weights k b0 a raw wi wt wg cfg H) (n : Net B H σ) (hh : HopInv n)
    (h : OnceInv k b0 a raw n) (l : Label B H)
    (hpub : ∀ b x r, l = .publish b x k r → b = b0 ∧ x = a ∧ r = raw)
    (horig : ∀ b b' r, l ≠ .originate b b' k r)
    (hself : ∀ s, l = .setTable b0 s → s.getBrokerConnection b0 = none) :
    OnceInv k b0 a raw (n.step cfg l) ∧
    ((handed cfg n [l]).map wg).sum + pot wi wt (n.step cfg l) ≤ pot wi wt n + (if publishes k l then 1 else 0) := by
  cases l with
  | publish b u id r =>
    refine ⟨⟨h.self, ?_, h.pend⟩, ?_⟩
    · intro i hi
      simp only [Net.step, List.mem_append, List.mem_singleton] at hi
      rcases hi with hi | rfl
      · exact h.wire i hi
      · intro hk
        dsimp only at hk
        subst hk
        obtain ⟨rfl, rfl, rfl⟩ := hpub b u r rfl
        exact ⟨rfl, .inl ⟨rfl, rfl⟩⟩
    · have : ((handed cfg n [Label.publish b u id r]).map wg).sum = 0 := by simp [handed, giver]
      rw [this]
      simp only [pot, Net.step, sum_append, List.map_cons, List.map_nil, List.sum_cons, List.sum_nil, publishes,
        decide_eq_true_eq]
      split
      · rename_i e
        have := hw.first ⟨b, .user u, ⟨id, u, r, 0⟩⟩ e
        omega
      · rename_i e
        have := hw.other ⟨b, .user u, ⟨id, u, r, 0⟩⟩ e
        omega
  | originate b b' id r =>
    have hne : id ≠ k := by rintro rfl; exact horig b b' r rfl
    refine ⟨⟨h.self, ?_, h.pend⟩, ?_⟩
    · intro i hi
      simp only [Net.step, List.mem_append, List.mem_singleton] at hi
      rcases hi with hi | rfl
      · exact h.wire i hi
      · intro hk
        exact absurd hk hne
    · have : ((handed cfg n [Label.originate b b' id r]).map wg).sum = 0 := by simp [handed, giver]
      rw [this]
      have := hw.other ⟨b, .broker b', ⟨id, [], r, 1⟩⟩ hne
      simp only [pot, Net.step, sum_append, List.map_cons, List.map_nil, List.sum_cons, List.sum_nil]
      omega
  | setTable b s =>
    refine ⟨⟨?_, h.wire, h.pend⟩, ?_⟩
    · simp only [Net.step, upd]
      split
      · rename_i e; subst e; exact hself s rfl
      · exact h.self
    · have : ((handed cfg n [Label.setTable b s]).map wg).sum = 0 := by simp [handed, giver]
      rw [this]
      simp only [pot, Net.step]
      omega
  | take b frm =>
    have h0 : ((handed cfg n [Label.take b frm]).map wg).sum = 0 := by simp [handed, giver]
    rw [h0, Nat.zero_add]
    simp only [Net.step]
    split
    · exact ⟨h, by omega⟩
    · split
      · exact ⟨h, by omega⟩
      · rename_i i hf
        obtain ⟨l1, l2, e, hp, hl1, hera⟩ := find?_split hf
        obtain ⟨rfl, rfl⟩ := item_for hp
        have hi := h.wire i (by rw [e]; simp)
        have hsub : (if (route cfg (n.tab i.here) (n.hook i.here i.frm) i.frm i.pkt.raw).2.2 = true then
            n.wire.eraseP (Item.for' i.here i.frm)
            else n.wire.filter (fun j => !Item.for' i.here i.frm j)).Sublist (l1 ++ l2) := by
          split
          · rw [hera]; exact List.Sublist.refl _
          · rw [e, List.filter_append, List.filter_cons, hp]
            exact (List.filter_sublist).append (List.filter_sublist)
        refine ⟨⟨h.self, ?_, ?_⟩, ?_⟩
        · intro j hj
          apply h.wire j
          have := hsub.subset hj
          rw [e]
          simp only [List.mem_append, List.mem_cons] at this ⊢
          exact this.imp id .inr
        · intro t ht
          simp only [List.mem_append, List.mem_map] at ht
          rcases ht with ht | ⟨d, -, rfl⟩
          · exact h.pend t ht
          · exact hi
        · simp only [pot, sum_append]
          have h1 := sum_sublist wi hsub
          have h2 := hw.take i (n.tab i.here) (n.hook i.here i.frm) hi
          have h3 : (n.wire.map wi).sum = ((l1 ++ l2).map wi).sum + wi i := by
            rw [e]; simp only [sum_append, List.map_cons, List.sum_cons]; omega
          rw [List.map_map]
          have h4 : (wt ∘ fun d => (⟨i.here, i.frm, i.pkt, d⟩ : Todo B)) = fun d => wt ⟨i.here, i.frm, i.pkt, d⟩ := rfl
          rw [h4]
          omega
  | send b frm ok =>
    simp only [handed, giver, Net.step, List.append_nil, publishes]
    split
    · refine ⟨h, ?_⟩
      simp
    · rename_i t hf
      obtain ⟨l1, l2, e, hp, -, hera⟩ := find?_split hf
      obtain ⟨rfl, rfl⟩ := todo_for hp
      have htm : t ∈ n.pend := by rw [e]; simp
      have hwt := h.pend t htm
      have hpend : ∀ x ∈ l1 ++ l2, Where k b0 a raw x.here x.frm x.pkt := by
        intro x hx
        apply h.pend x
        rw [e]
        simp only [List.mem_append, List.mem_cons] at hx ⊢
        exact hx.imp id .inr
      have h3 : (n.pend.map wt).sum = ((l1 ++ l2).map wt).sum + wt t := by
        rw [e]; simp only [sum_append, List.map_cons, List.sum_cons]; omega
      rw [hera]
      split
      · rename_i hok
        cases hd : t.dest with
        | user u =>
          refine ⟨⟨h.self, h.wire, hpend⟩, ?_⟩
          have := hw.give t u hd
          simp only [pot, List.drop_left, List.map_cons, List.map_nil, List.sum_cons, List.sum_nil]
          omega
        | broker b' =>
          have hfrm : ∀ x, t.frm ≠ .broker x := by
            intro x hx
            obtain ⟨u, hu⟩ := hh.last t htm x hx
            rw [hd] at hu; cases hu
          have hne : t.here = b0 → b' ≠ b0 := by
            rintro e1 rfl
            rw [hd, e1] at hok
            simp [lookup, h.self] at hok
          refine ⟨⟨h.self, ?_, hpend⟩, ?_⟩
          · intro i hi
            simp only [List.mem_append, List.mem_singleton] at hi
            rcases hi with hi | rfl
            · exact h.wire i hi
            · intro hk
              obtain ⟨h1, h2⟩ := hwt hk
              refine ⟨h1, ?_⟩
              rcases h2 with ⟨h2, -⟩ | ⟨-, h2⟩
              · right
                exact ⟨hne h2, by rw [h2]⟩
              · exact absurd h2 (hfrm b0)
          · have h4 := hw.pass t b' hwt hd hfrm hne
            have h5 := sum_append wt l1 l2
            dsimp only at h4
            simp only [pot, sum_append, List.drop_length, List.map_cons, List.map_nil, List.sum_cons, List.sum_nil]
            omega
      · refine ⟨⟨h.self, h.wire, hpend⟩, ?_⟩
        simp only [pot, List.drop_length, List.map_nil, List.sum_nil]
        omega

theorem handed_cons (cfg : Cfg B σ) (n : Net B H σ) (l : Label B H) (ls : List (Label B H)) :
    handed cfg n (l :: ls) = handed cfg n [l] ++ handed cfg (n.step cfg l) ls := by
  simp [handed]

theorem once_run (cfg : Cfg B σ) (hw : Weights k b0 a raw wi wt wg cfg H) (ls : List (Label B H)) (n : Net B H σ)
    (hh : HopInv n) (h : OnceInv k b0 a raw n)
    (hpub : ∀ b x r, Label.publish b x k r ∈ ls → b = b0 ∧ x = a ∧ r = raw)
    (horig : ∀ b b' r, Label.originate b b' k r ∉ ls)
    (hself : ∀ s, Label.setTable b0 s ∈ ls → s.getBrokerConnection b0 = none) :
    ((handed cfg n ls).map wg).sum ≤ pot wi wt n + (ls.filter (publishes k)).length := by
  induction ls generalizing n with
  | nil => simp [handed]
  | cons l ls ih =>
    obtain ⟨h1, h2⟩ := once_step k b0 a raw wi wt wg cfg hw n hh h l (fun b x r e => hpub b x r (by simp [e]))
      (fun b b' r e => horig b b' r (by simp [e])) (fun s e => hself s (by simp [e]))
    have h3 := ih _ (hopInv_step cfg n hh l) h1 (fun b x r hm => hpub b x r (List.mem_cons_of_mem _ hm))
      (fun b b' r hm => horig b b' r (List.mem_cons_of_mem _ hm)) (fun s hm => hself s (List.mem_cons_of_mem _ hm))
    rw [handed_cons, sum_append, List.filter_cons]
    split <;> simp_all <;> omega

theorem once_start (cfg : Cfg B σ) (hw : Weights k b0 a raw wi wt wg cfg H) (tab : B → Table B H) (hook : B → Dest B → σ)
    (ls : List (Label B H)) (hp : PublishedOnce k b0 a raw ls) (hs : NeverItself b0 tab ls) :
    ((handed cfg (start tab hook) ls).map wg).sum ≤ 1 := by
  have h := once_run k b0 a raw wi wt wg cfg hw ls (start tab hook) (hopInv_start tab hook)
    ⟨hs.1, by simp [start], by simp [start]⟩ (fun b x r hm => by
      have : Label.publish b x k r ∈ ls.filter (publishes k) := List.mem_filter.2 ⟨hm, by simp [publishes]⟩
      rw [hp.1] at this
      simp only [List.mem_singleton, Label.publish.injEq] at this
      exact ⟨this.1, this.2.1, this.2.2.2⟩) hp.2 hs.2
  rw [hp.1] at h
  simpa [pot, start] using h

end

theorem sum_countP {A : Type} (p : A → Bool) (l : List A) : (l.map fun x => if p x then 1 else 0).sum = l.countP p := by
  induction l with
  | nil => rfl
  | cons x l ih => rw [List.map_cons, List.sum_cons, ih, List.countP_cons]; omega

/-- What users have received is what they were handed. -/
theorem inbox_handed (cfg : Cfg B σ) (ls : List (Label B H)) (n : Net B H σ) :
    (n.run cfg ls).inbox = n.inbox ++ (handed cfg n ls).map Prod.snd := by
  induction ls generalizing n with
  | nil => simp [handed, Net.run]
  | cons l ls ih =>
    rw [Net.run_cons, ih, handed_cons, List.map_append, ← List.append_assoc]
    congr 1
    cases l with
    | publish => simp [Net.step, handed, giver]
    | originate => simp [Net.step, handed, giver]
    | setTable => simp [Net.step, handed, giver]
    | take b frm =>
      simp only [Net.step, handed, giver, List.append_nil, List.map_nil]
      split
      · rfl
      · split <;> rfl
    | send b frm ok =>
      simp only [Net.step, handed, giver, List.append_nil]
      split
      · simp
      · split
        · split <;> simp
        · simp

/-- How much of message `k` is under way to user `u` at broker `b`. -/
theorem weights_broker (cfg : Cfg B σ) (k : Nat) (b0 : B) (a raw : Bytes) (b : B) (u : Bytes) :
    Weights k b0 a raw (fun i => if i.pkt.id = k ∧ (i.here = b ∨ i.here = b0) then 1 else 0)
      (fun t => if t.pkt.id = k ∧ (t.here = b ∧ t.dest = .user u ∨ t.here = b0 ∧ b ≠ b0 ∧ t.dest = .broker b) then 1 else 0)
      (fun e => if decide (e.1 = b ∧ e.2.1 = u ∧ e.2.2.id = k) then 1 else 0) cfg H := by
  refine ⟨?_, ?_, ?_, ?_, ?_⟩
  · intro i hi; simp [hi]
  · intro i _; split <;> omega
  · intro i s h hi
    by_cases hk : i.pkt.id = k
    · by_cases hb : i.here = b ∨ i.here = b0
      · simp only [hk, hb, and_self, if_true, true_and]
        apply sum_one _ (nodup_route cfg s h i.frm i.pkt.raw) (if i.here = b then .user u else .broker b)
        intro x
        rcases hb with hb | hb
        · rw [if_pos hb]
          by_cases hx : x = .user u
          · rw [if_pos hx]; split <;> omega
          · rw [if_neg hx, if_neg]
            · exact Nat.le_refl _
            · rintro (⟨-, h⟩ | ⟨h1, h2, -⟩)
              · exact hx h
              · exact h2 (hb ▸ h1)
        · by_cases hbb : i.here = b
          · rw [if_pos hbb]
            by_cases hx : x = .user u
            · rw [if_pos hx]; split <;> omega
            · rw [if_neg hx, if_neg]
              · exact Nat.le_refl _
              · rintro (⟨-, h⟩ | ⟨h1, h2, -⟩)
                · exact hx h
                · exact h2 (hbb ▸ h1)
          · rw [if_neg hbb]
            by_cases hx : x = .broker b
            · rw [if_pos hx]; split <;> omega
            · rw [if_neg hx, if_neg]
              · exact Nat.le_refl _
              · rintro (⟨h, -⟩ | ⟨-, -, h⟩)
                · exact hbb h
                · exact hx h
      · rw [sum_zero]
        · exact Nat.zero_le _
        · intro d _
          rw [if_neg]
          rintro ⟨-, h⟩
          rcases h with ⟨h, -⟩ | ⟨h, -⟩
          · exact hb (.inl h)
          · exact hb (.inr h)
    · rw [sum_zero]
      · exact Nat.zero_le _
      · intro d _; simp [hk]
  · intro t x hd
    by_cases h : t.here = b ∧ x = u ∧ t.pkt.id = k
    · obtain ⟨h1, h2, h3⟩ := h
      simp [h1, h2, h3, hd]
    · rw [if_neg (by simpa using h)]; exact Nat.zero_le _
  · intro t b' hwh hd hf hne
    dsimp only
    split
    · rename_i hc
      obtain ⟨hk, hc⟩ := hc
      have hb0 : t.here = b0 := by
        rcases (hwh hk).2 with ⟨h, -⟩ | ⟨-, h⟩
        · exact h
        · exact absurd h (hf b0)
      have hb' := hne hb0
      have hbb : b' = b := by
        rcases hc with hc | hc
        · exact hc
        · exact absurd hc hb'
      subst hbb
      simp [hk, hb0, hb', hd]
    · exact Nat.zero_le _

/-- **C106 (one broker).** Any tables, changing in any way at any time, any hooks, any failures: whatever becomes of the users, no
broker hands one publication to the same user twice. -/
theorem C106_per_broker (cfg : Cfg B σ) (tab : B → Table B H) (hook : B → Dest B → σ) (ls : List (Label B H)) (k : Nat) (b0 : B)
    (a raw : Bytes) (hp : PublishedOnce k b0 a raw ls) (hs : NeverItself b0 tab ls) (b : B) (u : Bytes) :
    (handed cfg (start tab hook) ls).countP (fun e => e.1 = b ∧ e.2.1 = u ∧ e.2.2.id = k) ≤ 1 := by
  rw [← sum_countP]
  exact once_start k b0 a raw _ _ _ cfg (weights_broker cfg k b0 a raw b u) tab hook ls hp hs

theorem directDests_length (s : Table B H) (r : Bytes) (o : Bool) : (directDests s r o).length ≤ 1 := by
  unfold directDests
  split
  · simp
  · split
    · simp
    · split <;> simp

/-- How much of the direct message `k` is under way. -/
theorem weights_direct (cfg : Cfg B σ) (hT : Transparent cfg) (k : Nat) (b0 : B) (a raw r payload : Bytes)
    (hd : cfg.decode raw = some (.direct r payload)) :
    Weights k b0 a raw (fun i => if i.pkt.id = k then 1 else 0) (fun t => if t.pkt.id = k then 1 else 0)
      (fun e => if decide (e.2.2.id = k) then 1 else 0) cfg H := by
  refine ⟨?_, ?_, ?_, ?_, ?_⟩
  · intro i hi; simp [hi]
  · intro i _; split <;> omega
  · intro i s h hi
    by_cases hk : i.pkt.id = k
    · have hlen : (route cfg s h i.frm i.pkt.raw).2.1.length ≤ 1 := by
        rw [(hi hk).1]
        cases i.frm with
        | user x =>
          simp only [route, userRoute, hd, (hT h _).1]
          exact directDests_length _ _ _
        | broker x =>
          simp only [route, brokerRoute, hd, (hT h _).2]
          exact directDests_length _ _ _
      simp only [hk, if_true]
      revert hlen
      generalize (route cfg s h i.frm i.pkt.raw).2.1 = l
      intro hlen
      match l, hlen with
      | [], _ => simp
      | [_], _ => simp
      | _ :: _ :: _, h => simp at h
    · rw [sum_zero]
      · exact Nat.zero_le _
      · intro d _; simp [hk]
  · intro t x _
    by_cases h : t.pkt.id = k
    · simp [h]
    · simp [h]
  · intro t b' _ _ _ _
    exact Nat.le_refl _

/-- **C106 (direct messages).** Any tables, changing in any way at any time, any failures: a direct message is read at most
once, by anybody, also if its recipient moves from broker to broker, or is recorded at several brokers at a time. -/
theorem C106_direct (cfg : Cfg B σ) (hT : Transparent cfg) (tab : B → Table B H) (hook : B → Dest B → σ)
    (ls : List (Label B H)) (k : Nat) (b0 : B) (a raw r payload : Bytes) (hd : cfg.decode raw = some (.direct r payload))
    (hp : PublishedOnce k b0 a raw ls) (hs : NeverItself b0 tab ls) :
    ((start tab hook).run cfg ls).inbox.countP (fun e => e.2.id = k) ≤ 1 := by
  rw [inbox_handed, List.countP_append, List.countP_map]
  have h0 : (start tab hook : Net B H σ).inbox.countP (fun e => e.2.id = k) = 0 := rfl
  rw [h0, Nat.zero_add, ← sum_countP]
  exact once_start k b0 a raw _ _ _ cfg (weights_direct cfg hT k b0 a raw r payload hd) tab hook ls hp hs

/-- A broker hands a message only to a user it has a connection of. -/
theorem handed_connected (cfg : Cfg B σ) (ls : List (Label B H)) (n : Net B H σ) (u : Bytes) (b : B)
    (h : (n.tab b).getUserConnection u = none) (hs : ∀ s, Label.setTable b s ∈ ls → s.getUserConnection u = none)
    (p : Pkt) : (b, u, p) ∉ handed cfg n ls := by
  induction ls generalizing n with
  | nil => simp [handed]
  | cons l ls ih =>
    rw [handed_cons, List.mem_append]
    have hs' : ∀ s, Label.setTable b s ∈ ls → s.getUserConnection u = none := fun s hm => hs s (List.mem_cons_of_mem _ hm)
    rintro (h1 | h1)
    · cases l with
      | send b' frm ok =>
        simp only [handed, giver, Net.step, List.append_nil] at h1
        split at h1
        · simp at h1
        · split at h1
          · rename_i t _ hok
            cases hd : t.dest with
            | user x =>
              rw [hd] at h1 hok
              simp only [List.drop_left, List.map_cons, List.map_nil, List.mem_singleton, Prod.mk.injEq] at h1
              obtain ⟨rfl, rfl, -⟩ := h1
              simp [lookup, h] at hok
            | broker x => rw [hd] at h1; simp at h1
          · simp at h1
      | _ => simp [handed, giver] at h1
    · refine ih _ ?_ hs' h1
      cases l with
      | setTable b' s =>
        simp only [Net.step, upd]
        split
        · rename_i e; subst e; exact hs s (by simp)
        · exact h
      | send b' frm ok =>
        simp only [Net.step]
        split
        · exact h
        · split
          · split <;> exact h
          · exact h
      | take b' frm =>
        simp only [Net.step]
        split
        · exact h
        · split <;> exact h
      | _ => exact h

theorem count_parts (bs : List B) (p : Bytes × Pkt → Bool) (l : List (B × Bytes × Pkt))
    (h1 : ∀ b, l.countP (fun e => e.1 = b ∧ p e.2) ≤ 1) (h2 : ∀ e ∈ l, p e.2 → e.1 ∈ bs) :
    l.countP (fun e => p e.2) ≤ bs.length := by
  induction bs generalizing l with
  | nil =>
    rw [List.countP_eq_zero.2]
    · exact Nat.zero_le _
    · intro e he hpe
      cases h2 e he hpe
  | cons b bs ih =>
    have hsplit : l.countP (fun e => p e.2) = l.countP (fun e => e.1 = b ∧ p e.2) +
        (l.filter (fun e => e.1 ≠ b)).countP (fun e => p e.2) := by
      clear h1 h2 ih
      induction l with
      | nil => rfl
      | cons e l ih =>
        rw [List.countP_cons, List.countP_cons, List.filter_cons, ih]
        by_cases e1 : e.1 = b
        · simp [e1]; omega
        · simp [e1, List.countP_cons]; omega
    have := ih (l.filter (fun e => e.1 ≠ b)) (fun b' => by
        refine Nat.le_trans ?_ (h1 b')
        exact List.Sublist.countP_le List.filter_sublist)
      (fun e he hpe => by
        obtain ⟨h3, h4⟩ := List.mem_filter.1 he
        rcases List.mem_cons.1 (h2 e h3 hpe) with h5 | h5
        · simp [h5] at h4
        · exact h5)
    have := h1 b
    rw [hsplit, List.length_cons]
    omega

/-- **C106 (partial).** Any message: a user reads it at most as often as there are brokers the user is ever connected to. A user who
stays with one broker reads nothing twice. -/
theorem C106_moves_partial (cfg : Cfg B σ) (tab : B → Table B H) (hook : B → Dest B → σ) (ls : List (Label B H)) (k : Nat) (b0 : B)
    (a raw : Bytes) (hp : PublishedOnce k b0 a raw ls) (hs : NeverItself b0 tab ls) (u : Bytes) (bs : List B)
    (hbs : ∀ b, b ∉ bs → (tab b).getUserConnection u = none ∧ ∀ s, Label.setTable b s ∈ ls → s.getUserConnection u = none) :
    copiesReceived ((start tab hook).run cfg ls) u k ≤ bs.length := by
  unfold copiesReceived
  rw [inbox_handed, List.countP_append, List.countP_map]
  have h0 : (start tab hook : Net B H σ).inbox.countP (fun e => e.1 = u ∧ e.2.id = k) = 0 := rfl
  rw [h0, Nat.zero_add]
  refine count_parts bs (fun e => decide (e.1 = u ∧ e.2.id = k)) _ ?_ ?_
  · intro b
    refine Nat.le_trans (Nat.le_of_eq ?_) (C106_per_broker cfg tab hook ls k b0 a raw hp hs b u)
    apply List.countP_congr
    intro e _
    simp
  · rintro ⟨b, x, p⟩ he hpe
    simp only [decide_eq_true_eq] at hpe
    obtain ⟨rfl, -⟩ := hpe
    by_cases hb : b ∈ bs
    · exact hb
    · exact absurd he (handed_connected cfg ls (start tab hook) x b (hbs b hb).1 (hbs b hb).2 p)

/-! ## Concrete cases -/

/-- Broker 0 with the users `[1]` (publisher) and `[2]` on topic 0, joined with broker 1, at which `[3]` is on topic 0. -/
def early0 : Table Nat Nat := (Conns.new 0).run [.addUser [1] 11 [], .addUser [2] 12 [0], .addBroker 1 101]

def early1 : Table Nat Nat := (Conns.new 1).run [.addUser [3] 13 [0], .addBroker 0 100]

/-- The same after they applied each other's user and topic syncs. -/
def twoTab (b : Nat) : Table Nat Nat :=
  if b = 0 then
    (early0.applyUserSync early1.direct).applyTopicSync 1 ((early1.getPartialTopicSync.2).getD (VMap.new 0))
  else if b = 1 then
    (early1.applyUserSync early0.direct).applyTopicSync 0 ((early0.getPartialTopicSync.2).getD (VMap.new 0))
  else Conns.new b

/-- User `[2]` connects to broker 1. -/
def movedTab : Table Nat Nat := (twoTab 1).run [.addUser [2] 14 [0]]

/-- Message 7 is published and handed to `[2]` at broker 0; `[2]` moves; the copy for broker 1 arrives there. -/
def moveRun (raw : Bytes) : List (Label Nat Nat) :=
  [.publish 0 [1] 7 raw, .take 0 (.user [1]), .send 0 (.user [1]) true, .send 0 (.user [1]) true, .setTable 1 movedTab,
    .take 1 (.broker 0), .send 1 (.broker 0) true, .send 1 (.broker 0) true]

theorem moveRun_once (raw : Bytes) : PublishedOnce 7 0 [1] raw (moveRun raw) := by
  refine ⟨rfl, ?_⟩
  intro b b' r h
  simp [moveRun] at h

theorem moveRun_self (raw : Bytes) : NeverItself 0 twoTab (moveRun raw) := by
  refine ⟨by decide, ?_⟩
  intro s h
  simp [moveRun] at h

/-- **C106 is false of broadcasts.** Two brokers in sync, a reader of topic 0 at broker 0. A broadcast is handed to the reader, who then
connects to broker 1 (nothing else changes), where the copy passed on by broker 0 is still to be handled: the reader reads
the broadcast twice. -/
theorem C106_false : ∃ (tab : Nat → Table Nat Nat) (ls : List (Label Nat Nat)) (raw : Bytes),
    demoNet.decode raw = some (.broadcast [0] []) ∧ PublishedOnce 7 0 [1] raw ls ∧ NeverItself 0 tab ls ∧
    (∀ b s, Label.setTable b s ∈ ls → b = 1 ∧ s = (tab 1).run [.addUser [2] 14 [0]]) ∧
    copiesReceived ((start tab (fun _ _ => 0)).run demoNet ls) [2] 7 = 2 := by
  refine ⟨twoTab, moveRun [4, 0], [4, 0], rfl, moveRun_once _, moveRun_self _, ?_, by decide +kernel⟩
  intro b s h
  simpa [moveRun, movedTab] using h

/-- A case of `C106_per_broker` and `C106_moves_partial`: there the reader was handed the message once by either broker. -/
example : PublishedOnce 7 0 [1] [4, 0] (moveRun [4, 0]) ∧ NeverItself 0 twoTab (moveRun [4, 0]) ∧
    (handed demoNet (start twoTab (fun _ _ => 0)) (moveRun [4, 0])).map (fun e => (e.1, e.2.1)) =
      [(0, [2]), (1, [3]), (1, [2])] ∧
    ∀ b, b ∉ [0, 1] → (twoTab b).getUserConnection [2] = none ∧
      ∀ s, Label.setTable b s ∈ moveRun [4, 0] → s.getUserConnection [2] = none := by
  refine ⟨moveRun_once _, moveRun_self _, by decide +kernel, ?_⟩
  intro b hb
  simp only [List.mem_cons, List.not_mem_nil, or_false, not_or] at hb
  refine ⟨?_, ?_⟩
  · simp only [twoTab, if_neg hb.1, if_neg hb.2]; rfl
  · intro s h
    have : b = 1 ∧ s = movedTab := by simpa [moveRun] using h
    exact absurd this.1 hb.2

/-- A case of `C106_direct`: the same moves with a direct message to `[2]`, read once. -/
example : demoNet.decode [3, 2] = some (.direct [2] []) ∧ PublishedOnce 7 0 [1] [3, 2] (moveRun [3, 2]) ∧
    NeverItself 0 twoTab (moveRun [3, 2]) ∧
    copiesReceived ((start twoTab (fun _ _ => 0)).run demoNet (moveRun [3, 2])) [2] 7 = 1 :=
  ⟨rfl, moveRun_once _, moveRun_self _, by decide +kernel⟩

end Verif.Props.Once

/-! ## The sending client -/

namespace Verif.Props.Once
open Verif Verif.Client

/-- Is this the call, its return with this result, or the handing over of message `m`? -/
def isCall (m : Msg) : Ev → Bool
  | .called _ (.send m') => m' = m
  | _ => false

def isReturn (m : Msg) (ok : Bool) : Ev → Bool
  | .returned _ (.send m') ok' => m' = m && ok' = ok
  | _ => false

def isSent (m : Msg) : Ev → Bool
  | .sent _ m' => m' = m
  | _ => false

/-- A message of an application, rather than one of the client's own. -/
def OfApplication : Msg → Prop
  | .direct _ _ | .broadcast _ _ => True
  | _ => False

/-- The point belongs to a call that sends `m` and has not returned. -/
def sending (m : Msg) : PC → Nat
  | .new (.send m') | .ready (.send m') | .reading (.send m') | .spawned (.send m') _ | .using (.send m') _
  | .failed (.send m') | .wantW (.send m') | .holdW (.send m') => if m' = m then 1 else 0
  | _ => 0

/-- Calls under way. -/
def underWay (m : Msg) (s : St) : Nat := ((List.range s.n).map fun t => sending m (s.pc t)).sum

theorem sum_range_upd (f : Nat → Nat) (n t x : Nat) (ht : t < n) :
    ((List.range n).map fun u => if u = t then x else f u).sum + f t = ((List.range n).map f).sum + x := by
  induction n with
  | zero => omega
  | succ n ih =>
    rw [List.range_succ, List.map_append, List.map_append, List.sum_append, List.sum_append]
    simp only [List.map_cons, List.map_nil, List.sum_cons, List.sum_nil]
    by_cases e : n = t
    · subst e
      have : ((List.range n).map fun u => if u = n then x else f u) = (List.range n).map f := by
        apply List.map_congr_left
        intro u hu
        rw [if_neg]
        have := List.mem_range.1 hu
        omega
      rw [this, if_pos rfl]
      omega
    · have := ih (by omega)
      rw [if_neg e]
      omega

theorem underWay_goto (m : Msg) (s : St) (t : Nat) (ht : t < s.n) (p : PC) :
    underWay m (s.goto t p) + sending m (s.pc t) = underWay m s + sending m p := by
  unfold underWay St.goto
  have := sum_range_upd (fun u => sending m (s.pc u)) s.n t (sending m p) ht
  have e : (fun u => sending m (Client.upd s.pc t p u)) = fun u => if u = t then sending m p else sending m (s.pc u) := by
    funext u
    unfold Client.upd
    split <;> rfl
  rw [e]
  exact this

theorem underWay_congr (m : Msg) {s s' : St} (hn : s'.n = s.n) (hp : s'.pc = s.pc) : underWay m s' = underWay m s := by
  unfold underWay
  rw [hn, hp]

/-- Counting the events of one step. -/
structure Counts (m : Msg) (s : St) (es : List Ev) (s' : St) : Prop where
  sent : es.countP (isSent m) = es.countP (isReturn m true)
  calls : es.countP (isReturn m true) + es.countP (isReturn m false) + underWay m s' ≤ underWay m s + es.countP (isCall m)

theorem counts_move {m : Msg} {s s' : St} {es : List Ev} (hi : s.Inv) {t : Nat} {p q : PC} (h : s.pc t = q) (hq : q ≠ .idle)
    (hn : s'.n = s.n) (hp : s'.pc = Client.upd s.pc t p) (hs : es.countP (isSent m) = es.countP (isReturn m true))
    (hc : es.countP (isReturn m true) + es.countP (isReturn m false) + sending m p ≤ sending m q + es.countP (isCall m)) :
    Counts m s es s' := by
  refine ⟨hs, ?_⟩
  have ht := Inv.lt hi (t := t) (by rw [h]; exact hq)
  have h1 := underWay_goto m s t ht p
  have h2 : underWay m s' = underWay m (s.goto t p) := underWay_congr m hn hp
  rw [h] at h1
  omega

theorem counts_giveUp {m : Msg} {s : St} (hi : s.Inv) {t : Nat} {q : PC} {w : Work} (h : s.pc t = q) (hq : q ≠ .idle)
    (hw : sending m q = sending m (.ready w)) {s' : St} (hn : s'.n = s.n) (hp : s'.pc = (s.giveUp t w).1.pc) :
    Counts m s (s.giveUp t w).2 s' := by
  cases w with
  | ensure => exact counts_move hi (t := t) (p := .ensureWait) h hq hn hp rfl (by simp [St.giveUp, sending])
  | send m' =>
    refine counts_move hi (t := t) (p := .done) h hq hn hp (by simp [St.giveUp, isSent, isReturn, Work.op]) ?_
    rw [hw]
    simp only [St.giveUp, sending, Work.op, isReturn, isCall, List.countP_cons, List.countP_nil]
    by_cases e : m' = m <;> simp [e]
  | recv => exact counts_move hi (t := t) (p := .done) h hq hn hp (by simp [St.giveUp, isSent, isReturn, Work.op]) (by simp [St.giveUp, sending, isReturn, Work.op])
  | softClose => exact counts_move hi (t := t) (p := .done) h hq hn hp (by simp [St.giveUp, isSent, isReturn, Work.op]) (by simp [St.giveUp, sending, isReturn, Work.op])
  | topics add ts todo => exact counts_move hi (t := t) (p := .done) h hq hn hp (by simp [St.giveUp, isSent, isReturn, Work.op]) (by simp [St.giveUp, sending, isReturn, Work.op])

theorem sending_reading (m : Msg) (w : Work) : sending m (.reading w) = sending m (.ready w) := by cases w <;> rfl
theorem sending_spawned (m : Msg) (w : Work) (r : Nat) : sending m (.spawned w r) = sending m (.ready w) := by cases w <;> rfl
theorem sending_using (m : Msg) (w : Work) (c : Nat) : sending m (.using w c) = sending m (.ready w) := by cases w <;> rfl
theorem sending_failed (m : Msg) (w : Work) : sending m (.failed w) = sending m (.ready w) := by cases w <;> rfl
theorem sending_wantW (m : Msg) (w : Work) : sending m (.wantW w) = sending m (.ready w) := by cases w <;> rfl
theorem sending_holdW (m : Msg) (w : Work) : sending m (.holdW w) = sending m (.ready w) := by cases w <;> rfl

/-- A return without anything handed over. -/
theorem counts_return {m : Msg} (t : Nat) (w : Work) : [Ev.returned t w.op false].countP (isReturn m false) = sending m (.ready w) ∧
    [Ev.returned t w.op false].countP (isReturn m true) = 0 ∧ [Ev.returned t w.op false].countP (isSent m) = 0 := by
  cases w with
  | send m' => by_cases e : m' = m <;> simp [Work.op, isReturn, isSent, sending, e]
  | _ => simp [Work.op, isReturn, isSent, sending]

theorem countP_dropped (m : Msg) (t : Nat) (o : Option Nat) (l : List Ev) :
    ((o.toList.map (Ev.dropped t)) ++ l).countP (isSent m) = l.countP (isSent m) ∧
    (∀ ok, ((o.toList.map (Ev.dropped t)) ++ l).countP (isReturn m ok) = l.countP (isReturn m ok)) := by
  cases o <;> simp [isSent, isReturn]

theorem counts_step {m : Msg} (hm : OfApplication m) {s s' : St} {es : List Ev} (hi : s.Inv) (hs : Step s es s') :
    Counts m s es s' := by
  cases hs with
  | call op =>
    refine ⟨by simp [isSent, isReturn], ?_⟩
    have h0 : underWay m { s with pc := Client.upd s.pc s.n (.new op), n := s.n + 1 } = underWay m s + sending m (.new op) := by
      unfold underWay
      rw [List.range_succ, List.map_append, List.sum_append]
      simp only [List.map_cons, List.map_nil, List.sum_cons, List.sum_nil, Nat.add_zero]
      congr 1
      · congr 1
        apply List.map_congr_left
        intro u hu
        have := List.mem_range.1 hu
        unfold Client.upd
        rw [if_neg (by omega)]
      · unfold Client.upd
        rw [if_pos rfl]
    rw [h0]
    cases op with
    | send m' => by_cases e : m' = m <;> simp [isReturn, isCall, sending, e]
    | _ => simp [isReturn, isCall, sending]
  | spawn t w h hn ho hp =>
    refine ⟨rfl, ?_⟩
    have ht := Inv.lt hi (t := t) (by rw [h]; simp)
    have h1 := underWay_goto m s t ht (.spawned w s.n)
    have h2 : underWay m { s with pc := Client.upd (Client.upd s.pc t (.spawned w s.n)) s.n .rWait, n := s.n + 1 } =
        underWay m (s.goto t (.spawned w s.n)) := by
      unfold underWay St.goto
      rw [List.range_succ, List.map_append, List.sum_append]
      have : (([s.n].map fun u => sending m (Client.upd (Client.upd s.pc t (.spawned w s.n)) s.n .rWait u)).sum) = 0 := by
        simp [Client.upd, sending]
      dsimp only
      rw [this, Nat.add_zero]
      congr 1
      apply List.map_congr_left
      intro u hu
      have := List.mem_range.1 hu
      have hne : u ≠ s.n := by omega
      rw [Client.upd_ne _ _ hne]
    rw [h, sending_reading, sending_spawned] at h1
    rw [h2]
    simp only [List.countP_nil]
    omega
  | noRead t w h hw u hu hb => exact counts_giveUp hi h (by simp) rfl (by cases w <;> rfl) rfl
  | noSpawn t w h hn hb => exact counts_giveUp hi h (by simp) (sending_reading m w) (by cases w <;> rfl) rfl
  | store t w r h => exact counts_giveUp hi h (by simp) (sending_spawned m w r) (by cases w <;> rfl) rfl
  | useOk t w c h =>
    refine counts_move hi (p := .done) h (by simp) rfl rfl ?_ ?_
    · cases w with
      | send m' => by_cases e : m' = m <;> simp [Work.message, Work.op, isSent, isReturn, e]
      | topics add ts todo =>
        cases m <;> first | exact hm.elim | cases add <;> simp [Work.message, Work.op, isSent, isReturn]
      | _ => simp [Work.message, Work.op, isSent, isReturn]
    · cases w with
      | send m' => by_cases e : m' = m <;> simp [Work.message, Work.op, isCall, isReturn, sending, e]
      | topics add ts todo => cases add <;> simp [Work.message, Work.op, isCall, isReturn, sending]
      | _ => simp [Work.message, Work.op, isCall, isReturn, sending]
  | failBusy t w h hp =>
    obtain ⟨h1, h2, h3⟩ := counts_return (m := m) t w
    refine counts_move hi (p := .done) h (by simp) rfl rfl (by rw [h2, h3]) ?_
    rw [h1, h2, sending_failed]
    simp [sending]
  | take t w h =>
    obtain ⟨h1, h2, h3⟩ := counts_return (m := m) t w
    obtain ⟨h4, h5⟩ := countP_dropped m t s.conn [.returned t w.op false]
    refine counts_move hi (p := .done) h (by simp) rfl rfl (by rw [h4, h5, h2, h3]) ?_
    rw [h5, h5, h1, h2, sending_holdW]
    have : sending m .done = 0 := rfl
    omega
  | closeTake t h =>
    obtain ⟨h4, h5⟩ := countP_dropped m t s.conn [.returned t .close true]
    refine counts_move hi (p := .done) h (by simp) rfl rfl (by rw [h4, h5]; simp [isSent, isReturn]) ?_
    rw [h5, h5]
    simp [isReturn, sending]
  | sendNew t m' h => exact counts_move hi h (by simp) rfl rfl rfl (by simp [sending])
  | read t w h hw => exact counts_move hi h (by simp) rfl rfl rfl (by simp [sending_reading])
  | found t w h c hc he => exact counts_move hi h (by simp) rfl rfl rfl (by simp [sending_reading, sending_using])
  | useErr t w c h => exact counts_move hi h (by simp) rfl rfl rfl (by simp [sending_failed, sending_using])
  | failFree t w h hp => exact counts_move hi h (by simp) rfl rfl rfl (by simp [sending_failed, sending_wantW])
  | lockW t w h hw hr => exact counts_move hi h (by simp) rfl rfl rfl (by simp [sending_holdW, sending_wantW])
  | rFail t h => exact counts_move hi (t := t) (p := .rSleep) rfl (by rcases h with h | h | h <;> simp [h]) rfl rfl rfl (by simp [sending])
  | rAbort t h ha =>
    exact counts_move hi (t := t) (p := .done) rfl (by intro e; rw [e] at h; simp [PC.abortable] at h) rfl rfl rfl (by simp [sending])
  | cancel t op h =>
    exact counts_move hi (t := t) (p := .done) rfl (by intro e; rw [e] at h; simp [PC.awaits] at h) rfl rfl rfl (by simp [sending])
  | recvNew t h | softNew t h | ensureNew t h _ | lockSubs t _ _ h _ _ | ensureAcq t h _ _ | closeGuard t h | closeAbort t h
  | closeLock t h _ _ | rLock t h _ _ | rClosed t h _ | rMarshal t h | rSet t _ h | rPermit t h | rDone t h | rWake t h =>
    exact counts_move hi h (by simp) rfl rfl rfl (by simp [sending])
  | ensureErr t h _ | foundEnsure t h _ _ | ensureRel t h | ensureShut t h _ | rConnect t h _ | rSubs t h _ | rAuthOk t h =>
    exact counts_move hi h (by simp) rfl rfl (by simp [isSent, isReturn]) (by simp [sending, isReturn])

/-- **C106 (the client).** Whatever an application does with a client and whatever happens to the connections: a message is handed
to a connection exactly as often as a call to send it returned `Ok`, and the calls that returned are at most the calls made. A
call that failed, or was given up by its caller, sends nothing, and the client never sends again by itself, not even after it reconnected. -/
theorem C106_client (init : List Topic) {es : List Ev} {s : St} (h : Run (St.new init) es s) (m : Msg) (hm : OfApplication m) :
    es.countP (isSent m) = es.countP (isReturn m true) ∧
    es.countP (isReturn m true) + es.countP (isReturn m false) ≤ es.countP (isCall m) := by
  have key : es.countP (isSent m) = es.countP (isReturn m true) ∧
      es.countP (isReturn m true) + es.countP (isReturn m false) + underWay m s ≤ es.countP (isCall m) := by
    induction h with
    | nil => simp [underWay, St.new]
    | snoc es1 s1 es2 s2 h1 hs ih =>
      obtain ⟨h2, h3⟩ := counts_step hm (reach_inv h1) hs
      simp only [List.countP_append]
      omega
  exact ⟨key.1, by omega⟩

/-- A case: the client has connected; of two calls to send the same message the first succeeds, the second finds the connection broken. -/
example : ∃ es s, Run (St.new [5]) es s ∧ OfApplication (.direct [2] [9]) ∧ es.countP (isCall (.direct [2] [9])) = 2 ∧
    es.countP (isSent (.direct [2] [9])) = 1 ∧ es.countP (isReturn (.direct [2] [9]) true) = 1 ∧
    es.countP (isReturn (.direct [2] [9]) false) = 1 := by
  have r1 := ((((((Props.Client.run_one [5]).then (.call (.send (.direct [2] [9])))).then (.sendNew 2 (.direct [2] [9]) rfl)).then
    (.read 2 (.send (.direct [2] [9])) rfl (by decide))).then (.found 2 (.send (.direct [2] [9])) rfl 0 rfl (by decide))).then
    (.useOk 2 (.send (.direct [2] [9])) 0 rfl))
  have r2 := (((((r1.then (.call (.send (.direct [2] [9])))).then (.sendNew 3 (.direct [2] [9]) rfl)).then
    (.read 3 (.send (.direct [2] [9])) rfl (by decide))).then (.found 3 (.send (.direct [2] [9])) rfl 0 rfl (by decide))).then
    (.useErr 3 (.send (.direct [2] [9])) 0 rfl))
  have r3 := (((r2.then (.failFree 3 (.send (.direct [2] [9])) rfl (by decide))).then
    (.lockW 3 (.send (.direct [2] [9])) rfl (by decide) (by decide))).then (.take 3 (.send (.direct [2] [9])) rfl))
  exact ⟨_, _, r3, trivial, by decide +kernel, by decide +kernel, by decide +kernel, by decide +kernel⟩

end Verif.Props.Once

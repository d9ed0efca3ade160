import Verif.Lemmas.NetworkFifo
import Verif.Props.Broker

/-!
# Properties C14, C18, C19, C20: messages in a network of brokers

Brokers, the links between them and the order of all steps are arbitrary. `Label` (Model/Network.lean)
lists what can happen; a list of labels is a schedule.
-/

set_option linter.unusedSectionVars false

namespace Verif.Props.Network
open Verif Verif.Conns Verif.Broker Verif.Net

variable {B H σ : Type} [DecidableEq B] [DecidableEq H] [LT B] [DecidableLT B]

/-! ## C14 -/

/-- **C14 (one link).** From any tables, under any schedule including arbitrary table changes, any
hooks and failing sends: every frame anywhere in the system (queued at a broker, about to be sent, or
received by a user) has crossed at most one broker-to-broker link, and a broker that handles a frame
that came from a broker only ever sends it to users. -/
theorem C14_at_most_one_link (cfg : Cfg B σ) (tab : B → Table B H) (hook : B → Dest B → σ)
    (ls : List (Label B H)) :
    let n := (start tab hook).run cfg ls
    (∀ i ∈ n.wire, i.pkt.hops ≤ 1) ∧ (∀ e ∈ n.inbox, e.2.hops ≤ 1) ∧
    (∀ t ∈ n.pend, t.pkt.hops + (match t.dest with | .user _ => 0 | .broker _ => 1) ≤ 1) ∧
    (∀ t ∈ n.pend, ∀ b, t.frm = .broker b → ∃ u, t.dest = .user u) := by
  intro n
  have h : HopInv n := hopInv_run cfg _ (hopInv_start tab hook) ls
  refine ⟨?_, h.inbox, ?_, h.last⟩
  · intro i hi; rw [h.wire i hi]; split <;> omega
  · intro t ht
    have h1 := h.pend t ht
    cases hf : t.frm with
    | user u => rw [hf] at h1; simp only at h1; rw [h1]; split <;> omega
    | broker b =>
      rw [hf] at h1; simp only at h1
      obtain ⟨u, hu⟩ := h.last t ht b hf
      rw [hu, h1]; simp

/-- The state after `k` steps of an infinite schedule. -/
def stateAt (cfg : Cfg B σ) (n : Net B H σ) (f : Nat → Label B H) : Nat → Net B H σ
  | 0 => n
  | k + 1 => (stateAt cfg n f k).step cfg (f k)

/-- A label that brings a new message into the system. -/
def IsNew : Label B H → Prop
  | .publish _ _ _ _ => True
  | .originate _ _ _ _ => True
  | _ => False

theorem hopInv_stateAt (cfg : Cfg B σ) (n : Net B H σ) (h : HopInv n) (f : Nat → Label B H) (k : Nat) :
    HopInv (stateAt cfg n f k) := by
  induction k with
  | zero => exact h
  | succ k ih => exact hopInv_step cfg _ ih _

theorem eventually_idle (cfg : Cfg B σ) (n : Net B H σ) (h : HopInv n) (f : Nat → Label B H)
    (hf : ∀ k, ¬ IsNew (f k)) (w : Nat × Nat × Nat × Nat) :
    ∀ m, work (stateAt cfg n f m) = w →
      ∃ N, m ≤ N ∧ ∀ k, N ≤ k → ¬ Enabled (stateAt cfg n f k) (f k) := by
  induction w using wf_less.induction with
  | _ w ih =>
    intro m hm
    by_cases hall : ∀ k, m ≤ k → ¬ Enabled (stateAt cfg n f k) (f k)
    · exact ⟨m, Nat.le_refl _, hall⟩
    · -- the first enabled step after `m` lowers the work
      have hex : ∃ d, Enabled (stateAt cfg n f (m + d)) (f (m + d)) := by
        apply Classical.byContradiction
        intro hno
        apply hall
        intro k hk he
        exact hno ⟨k - m, by rw [show m + (k - m) = k by omega]; exact he⟩
      have hmin : ∃ d, Enabled (stateAt cfg n f (m + d)) (f (m + d)) ∧
          ∀ d' < d, ¬ Enabled (stateAt cfg n f (m + d')) (f (m + d')) := by
        obtain ⟨d, hd⟩ := hex
        induction d using Nat.strongRecOn with
        | _ d ihd =>
          by_cases hlt : ∃ d' < d, Enabled (stateAt cfg n f (m + d')) (f (m + d'))
          · obtain ⟨d', h1, h2⟩ := hlt
            exact ihd d' h1 h2
          · exact ⟨d, hd, fun d' h1 h2 => hlt ⟨d', h1, h2⟩⟩
      obtain ⟨d, hd, hlt⟩ := hmin
      have hsame : ∀ e ≤ d, work (stateAt cfg n f (m + e)) = w := by
        intro e
        induction e with
        | zero => intro _; exact hm
        | succ e ihe =>
          intro he
          rw [← ihe (by omega)]
          exact work_unchanged cfg _ (f (m + e)) (hlt e (by omega))
            (fun b u id raw e' => hf (m + e) (by rw [e']; trivial))
            (fun b b' id raw e' => hf (m + e) (by rw [e']; trivial))
      have hdec := work_decreases cfg _ (hopInv_stateAt cfg n h f (m + d)) (f (m + d)) hd
      rw [hsame d (Nat.le_refl _)] at hdec
      obtain ⟨N, h1, h2⟩ := ih _ hdec (m + d + 1) rfl
      exact ⟨N, by omega, h2⟩

/-- **C14 (finitely many sends).** Take any reachable state and any infinite continuation in which no
new message enters the system (tables may keep changing arbitrarily). From some moment on, no loop
ever handles a frame or performs a send again: the messages published before trigger only finitely
many sends. -/
theorem C14_finitely_many_sends (cfg : Cfg B σ) (tab : B → Table B H) (hook : B → Dest B → σ)
    (ls : List (Label B H)) (f : Nat → Label B H) (hf : ∀ k, ¬ IsNew (f k)) :
    ∃ N, ∀ k, N ≤ k → ¬ Enabled (stateAt cfg ((start tab hook).run cfg ls) f k) (f k) := by
  obtain ⟨N, _, h⟩ := eventually_idle cfg _ (hopInv_run cfg _ (hopInv_start tab hook) ls) f hf _ 0 rfl
  exact ⟨N, h⟩

/-- Nothing in flight. -/
def Quiescent (n : Net B H σ) : Prop := n.wire = [] ∧ n.pend = []

/-- **C14 (no deadlock).** As long as anything is in flight some loop can proceed. -/
theorem C14_progress (n : Net B H σ) (h : ∀ l : Label B H, ¬ Enabled n l) : Quiescent n := by
  have hp : n.pend = [] := by
    cases hp : n.pend with
    | nil => rfl
    | cons t l =>
      exfalso
      apply h (.send t.here t.frm true)
      simp [Enabled, hp, Todo.for']
  refine ⟨?_, hp⟩
  cases hw : n.wire with
  | nil => rfl
  | cons i l =>
    exfalso
    apply h (.take i.here i.frm)
    simp [Enabled, hp, hw, Item.for']

/-! ## C18, C19 -/

/-- A full mesh: the brokers in `M`, each linked to every other and to nothing else; every user is
connected to at most one of them, their `home`. -/
structure Mesh (M : B → Prop) (tab : B → Table B H) (home : Bytes → Option B) : Prop where
  self : ∀ b, M b → (tab b).identity = b
  linked : ∀ b b', M b → M b' → b ≠ b' → ((tab b).getBrokerConnection b').isSome
  linkedOnly : ∀ b b', M b → ((tab b).getBrokerConnection b').isSome → M b' ∧ b' ≠ b
  homeIn : ∀ u b, home u = some b → M b
  placed : ∀ b u, M b → (((tab b).getUserConnection u).isSome ↔ home u = some b)

/-- Topic interest is in sync: each broker knows the subscriptions `sub` of its own users, and knows
another broker as interested in a topic if one of that broker's users is subscribed to it. (It may take others to be
interested as well: messages they get in vain are not passed on.) Subscriptions are to valid topics (brokers accept no
others, C16 and C17). -/
structure TopicsInSync (valid : Topic → Bool) (M : B → Prop) (tab : B → Table B H)
    (home : Bytes → Option B) (sub : Bytes → Topic → Prop) : Prop where
  own : ∀ b u t, M b → home u = some b → (u ∈ (tab b).bcUsers.getKeysByValue t ↔ sub u t)
  peer : ∀ b b' t, M b → M b' → b ≠ b' → (∃ u, home u = some b' ∧ sub u t) →
    b' ∈ (tab b).bcBrokers.getKeysByValue t
  validSubs : ∀ u t, sub u t → valid t = true

/-- User routing is in sync: every broker knows every user's home, and no other user. -/
def UsersInSync (M : B → Prop) (tab : B → Table B H) (home : Bytes → Option B) : Prop :=
  ∀ b u, M b → (tab b).getBrokerOfUser u = home u

theorem not_connected {M : B → Prop} {tab : B → Table B H} {home : Bytes → Option B}
    (hm : Mesh M tab home) {b : B} {u : Bytes} (hb : M b) (h : home u ≠ some b) :
    (tab b).getUserConnection u = none := by
  cases hc : (tab b).getUserConnection u with
  | none => rfl
  | some c => exact absurd ((hm.placed b u hb).1 (by rw [hc]; rfl)) h

theorem wPend_zero {cfg : Cfg B σ} {M : B → Prop} {tab : B → Table B H} {home : Bytes → Option B}
    (hm : Mesh M tab home) {b : B} (hb : M b) (u : Bytes) (raw : Bytes) (d : Dest B)
    (h1 : home u = some b → d ≠ .user u) (h2 : ∀ b', home u = some b' → b' ≠ b → d ≠ .broker b') :
    wPend cfg tab u b raw d = 0 := by
  cases d with
  | user u' =>
    simp only [wPend, wLast]
    rw [if_neg]
    rintro ⟨rfl, hc⟩
    exact h1 ((hm.placed b u' hb).1 hc) rfl
  | broker b' =>
    simp only [wPend]
    split
    · rename_i hc
      obtain ⟨hMb', hne⟩ := hm.linkedOnly b b' hb hc
      apply wB_zero
      apply not_connected hm hMb'
      intro h
      exact h2 b' h hne rfl
    · rfl

theorem wLast_other {tab : B → Table B H} {u : Bytes} {b : B} {d : Dest B} (h : d ≠ .user u) :
    wLast tab u b d = 0 := by
  cases d with
  | broker => rfl
  | user u' =>
    simp only [wLast]
    rw [if_neg]; rintro ⟨rfl, _⟩; exact h rfl

/-- Copies of a broadcast for `u`. -/
theorem weight_broadcast {cfg : Cfg B σ} {M : B → Prop} {tab : B → Table B H}
    {home : Bytes → Option B} {sub : Bytes → Topic → Prop} (hm : Mesh M tab home)
    (hs : TopicsInSync cfg.valid M tab home sub) {b : B} (hb : M b) (a u raw : Bytes)
    (ts : List Topic) (payload : Bytes) (hd : cfg.decode raw = some (.broadcast ts payload)) :
    (((home u).isSome ∧ ∃ t ∈ ts, sub u t) → wWire cfg tab u b (.user a) raw = 1) ∧
    (¬ ((home u).isSome ∧ ∃ t ∈ ts, sub u t) → wWire cfg tab u b (.user a) raw = 0) := by
  have hdests : dests cfg (tab b) (.user a) raw = broadcastDests (tab b) (prune cfg.valid ts).1 false := by
    simp [dests, hd]
  have hprune : ∀ u, (∃ t ∈ (prune cfg.valid ts).1, sub u t) ↔ ∃ t ∈ ts, sub u t := by
    intro u
    constructor
    · rintro ⟨t, h1, h2⟩; exact ⟨t, ((mem_prune _ _ _).1 h1).1, h2⟩
    · rintro ⟨t, h1, h2⟩; exact ⟨t, (mem_prune _ _ _).2 ⟨h1, hs.validSubs u t h2⟩, h2⟩
  cases hh : home u with
  | none =>
    refine ⟨by simp, fun _ => ?_⟩
    apply sum_zero
    intro d _
    apply wPend_zero hm hb
    · rw [hh]; simp
    · intro b' h; rw [hh] at h; simp at h
  | some hb' =>
    have hM' := hm.homeIn u hb' hh
    by_cases heq : hb' = b
    · subst heq
      have hsum := sum_single (wPend cfg tab u hb' raw) (dests cfg (tab hb') (.user a) raw)
        (nodup_dests _ _ _ _) (.user u) (by
          intro x _ hx
          apply wPend_zero hm hb _ _ _ (fun _ => hx)
          intro b'' h1 h2
          rw [hh] at h1; exact absurd (Option.some.inj h1).symm h2)
      have hmem : Dest.user u ∈ dests cfg (tab hb') (.user a) raw ↔ ∃ t ∈ ts, sub u t := by
        rw [hdests, user_mem_broadcastDests, ← hprune u]
        constructor
        · rintro ⟨t, h1, h2⟩; exact ⟨t, h1, (hs.own hb' u t hb hh).1 h2⟩
        · rintro ⟨t, h1, h2⟩; exact ⟨t, h1, (hs.own hb' u t hb hh).2 h2⟩
      have hone : wPend cfg tab u hb' raw (.user u) = 1 := by
        simp only [wPend, wLast, true_and]
        rw [if_pos ((hm.placed hb' u hb).2 hh)]
      constructor
      · rintro ⟨_, h⟩; exact (hsum.1 (hmem.2 h)).trans hone
      · intro h; exact hsum.2 (fun hin => h ⟨rfl, hmem.1 hin⟩)
    · have hne : b ≠ hb' := fun h => heq h.symm
      have hsum := sum_single (wPend cfg tab u b raw) (dests cfg (tab b) (.user a) raw)
        (nodup_dests _ _ _ _) (.broker hb') (by
          intro x _ hx
          apply wPend_zero hm hb
          · intro h; rw [hh] at h; exact absurd (Option.some.inj h) heq
          · intro b'' h1 _
            rw [hh] at h1; rw [← Option.some.inj h1]; exact hx)
      have hmem : (∃ t ∈ (prune cfg.valid ts).1, ∃ u', home u' = some hb' ∧ sub u' t) →
          Dest.broker hb' ∈ dests cfg (tab b) (.user a) raw := by
        rw [hdests, broker_mem_broadcastDests]
        rintro ⟨t, h1, h2⟩; exact ⟨rfl, t, h1, hs.peer b hb' t hb hM' hne h2⟩
      -- the copy made at the home broker
      have hsum2 := sum_single (wLast tab u hb') (dests cfg (tab hb') (.broker b) raw)
        (nodup_dests _ _ _ _) (.user u) (fun x _ hx => wLast_other hx)
      have hmem2 : Dest.user u ∈ dests cfg (tab hb') (.broker b) raw ↔ ∃ t ∈ ts, sub u t := by
        simp only [dests, hd]
        rw [user_mem_broadcastDests]
        constructor
        · rintro ⟨t, h1, h2⟩; exact ⟨t, h1, (hs.own hb' u t hM' hh).1 h2⟩
        · rintro ⟨t, h1, h2⟩; exact ⟨t, h1, (hs.own hb' u t hM' hh).2 h2⟩
      have hval : wPend cfg tab u b raw (.broker hb') = wB cfg tab u hb' b raw := by
        simp only [wPend]; rw [if_pos (hm.linked b hb' hb hM' hne)]
      constructor
      · rintro ⟨_, h⟩
        have hin : Dest.broker hb' ∈ dests cfg (tab b) (.user a) raw := by
          obtain ⟨t, h1, h2⟩ := (hprune u).2 h
          exact hmem ⟨t, h1, u, hh, h2⟩
        refine (hsum.1 hin).trans (hval.trans ((hsum2.1 (hmem2.2 h)).trans ?_))
        simp only [wLast, true_and]
        rw [if_pos ((hm.placed hb' u hM').2 hh)]
      · intro h
        have h0 : wB cfg tab u hb' b raw = 0 := hsum2.2 (fun hin => h ⟨rfl, hmem2.1 hin⟩)
        by_cases hin : Dest.broker hb' ∈ dests cfg (tab b) (.user a) raw
        · exact (hsum.1 hin).trans (hval.trans h0)
        · exact hsum.2 hin

/-- Copies of a direct message for `u`. -/
theorem weight_direct {cfg : Cfg B σ} {M : B → Prop} {tab : B → Table B H}
    {home : Bytes → Option B} (hm : Mesh M tab home) (hs : UsersInSync M tab home) {b : B} (hb : M b)
    (a u raw : Bytes) (r : Bytes) (payload : Bytes) (hd : cfg.decode raw = some (.direct r payload)) :
    ((u = r ∧ (home r).isSome) → wWire cfg tab u b (.user a) raw = 1) ∧
    (¬ (u = r ∧ (home r).isSome) → wWire cfg tab u b (.user a) raw = 0) := by
  cases hh : home r with
  | none =>
    have : dests cfg (tab b) (.user a) raw = [] := by
      simp [dests, hd, directDests, hs b r hb, hh]
    simp [wWire, this]
  | some hb' =>
    have hM' := hm.homeIn r hb' hh
    by_cases heq : hb' = b
    · subst heq
      have : dests cfg (tab hb') (.user a) raw = [.user r] := by
        simp [dests, hd, directDests, hs hb' r hb, hh, hm.self hb' hb]
      have hc := (hm.placed hb' r hb).2 hh
      by_cases hu : u = r
      · subst hu; simp [wWire, this, wPend, wLast, hc]
      · have hu' : ¬ r = u := fun h => hu h.symm
        simp [wWire, this, wPend, wLast, hu, hu']
    · have hne : b ≠ hb' := fun h => heq h.symm
      have h1 : dests cfg (tab b) (.user a) raw = [.broker hb'] := by
        simp [dests, hd, directDests, hs b r hb, hh, hm.self b hb, heq]
      have h2 : dests cfg (tab hb') (.broker b) raw = [.user r] := by
        simp [dests, hd, directDests, hs hb' r hM', hh, hm.self hb' hM']
      have hc := (hm.placed hb' r hM').2 hh
      have hl := hm.linked b hb' hb hM' hne
      by_cases hu : u = r
      · subst hu; simp [wWire, h1, wPend, hl, wB, h2, wLast, hc]
      · have hu' : ¬ r = u := fun h => hu h.symm
        simp [wWire, h1, wPend, hl, wB, h2, wLast, hu, hu']

/-- How many copies of message `k` user `u` has received. -/
def copiesReceived (n : Net B H σ) (u : Bytes) (k : Nat) : Nat :=
  n.inbox.countP (fun e => e.1 = u ∧ e.2.id = k)

/-- Is this the publication of message `k`? -/
def publishes (k : Nat) : Label B H → Bool
  | .publish _ _ id _ => id = k
  | _ => false

theorem sum_created (cfg : Cfg B σ) (tab : B → Table B H) (u : Bytes) (k : Nat)
    (ls : List (Label B H)) :
    (ls.map (created cfg tab u k)).sum = ((ls.filter (publishes k)).map (created cfg tab u k)).sum := by
  induction ls with
  | nil => rfl
  | cons l ls ih =>
    rw [List.map_cons, List.sum_cons, ih, List.filter_cons]
    cases l with
    | publish b a id raw =>
      by_cases hk : id = k
      · simp [publishes, hk]
      · simp [publishes, hk, created]
    | _ => simp [publishes, created]

/-- Conservation: what is received never exceeds, and at quiescence equals, the weight of the one
publication. -/
theorem conservation (cfg : Cfg B σ) (hT : Transparent cfg) (tab : B → Table B H)
    (hook : B → Dest B → σ) (ls : List (Label B H)) (hl : ∀ l ∈ ls, Static cfg l) (k : Nat) (b : B)
    (a raw : Bytes) (honce : ls.filter (publishes k) = [.publish b a k raw]) (u : Bytes) :
    let n := (start tab hook).run cfg ls
    copiesReceived n u k ≤ wWire cfg tab u b (.user a) raw ∧
    (Quiescent n → copiesReceived n u k = wWire cfg tab u b (.user a) raw) := by
  intro n
  obtain ⟨_, h⟩ := total_run cfg hT tab ls (start tab hook) (staticInv_start cfg tab hook) hl u k
  rw [sum_created, honce] at h
  have h0 : total cfg u k (start tab hook : Net B H σ) = 0 := by simp [total, start]
  have h1 : ([Label.publish b a k raw].map (created cfg tab u k)).sum =
      wWire cfg tab u b (.user a) raw := by simp [created]
  rw [h0, h1, Nat.zero_add] at h
  unfold total at h
  constructor
  · rw [← h]; unfold copiesReceived; simp only [n]; omega
  · rintro ⟨hw, hp⟩
    simp only [n] at hw hp
    rw [hw, hp] at h
    simpa [copiesReceived] using h

/-- **C18.** A full mesh of any size with topic interest in sync, any schedule of publications by any
users, link deliveries and sends (no failures, no table changes), no-op hooks. A broadcast published
once, at any broker of the mesh, has, when everything in flight is delivered, been received exactly
once by every connected user subscribed to one of its valid topics and by nobody else. At every moment
before, nobody has more than that. -/
theorem C18_broadcast_exactly_once (cfg : Cfg B σ) (hT : Transparent cfg) (M : B → Prop)
    (tab : B → Table B H) (home : Bytes → Option B) (sub : Bytes → Topic → Prop)
    (hm : Mesh M tab home) (hs : TopicsInSync cfg.valid M tab home sub) (hook : B → Dest B → σ)
    (ls : List (Label B H)) (hl : ∀ l ∈ ls, Static cfg l) (k : Nat) (b : B) (hb : M b)
    (a raw : Bytes) (ts : List Topic) (payload : Bytes)
    (hd : cfg.decode raw = some (.broadcast ts payload))
    (honce : ls.filter (publishes k) = [.publish b a k raw]) (u : Bytes) :
    let n := (start tab hook).run cfg ls
    let wants := (home u).isSome ∧ ∃ t ∈ ts, cfg.valid t = true ∧ sub u t
    copiesReceived n u k ≤ 1 ∧ (¬ wants → copiesReceived n u k = 0) ∧
    (Quiescent n → wants → copiesReceived n u k = 1) := by
  intro n wants
  have hw := weight_broadcast hm hs hb a u raw ts payload hd
  obtain ⟨c1, c2⟩ := conservation cfg hT tab hook ls hl k b a raw honce u
  have hiff : wants ↔ ((home u).isSome ∧ ∃ t ∈ ts, sub u t) := by
    constructor
    · rintro ⟨h1, t, h2, _, h3⟩; exact ⟨h1, t, h2, h3⟩
    · rintro ⟨h1, t, h2, h3⟩; exact ⟨h1, t, h2, hs.validSubs u t h3, h3⟩
  refine ⟨?_, ?_, ?_⟩
  · by_cases h : wants
    · rw [hw.1 (hiff.1 h)] at c1; exact c1
    · rw [hw.2 (fun h' => h (hiff.2 h'))] at c1; exact Nat.le_trans c1 (by omega)
  · intro h
    rw [hw.2 (fun h' => h (hiff.2 h'))] at c1; exact Nat.le_zero.1 c1
  · intro hq h
    rw [← hw.1 (hiff.1 h)]; exact c2 hq

/-- **C19.** Likewise with user routing in sync: a direct message published once is received exactly
once by its recipient if the recipient is connected anywhere in the mesh, and by nobody else; if the
recipient is not connected, by nobody. -/
theorem C19_direct_exactly_once (cfg : Cfg B σ) (hT : Transparent cfg) (M : B → Prop)
    (tab : B → Table B H) (home : Bytes → Option B) (hm : Mesh M tab home)
    (hs : UsersInSync M tab home) (hook : B → Dest B → σ) (ls : List (Label B H))
    (hl : ∀ l ∈ ls, Static cfg l) (k : Nat) (b : B) (hb : M b) (a raw : Bytes) (r payload : Bytes)
    (hd : cfg.decode raw = some (.direct r payload))
    (honce : ls.filter (publishes k) = [.publish b a k raw]) (u : Bytes) :
    let n := (start tab hook).run cfg ls
    copiesReceived n u k ≤ 1 ∧ (¬ (u = r ∧ (home r).isSome) → copiesReceived n u k = 0) ∧
    (Quiescent n → u = r → (home r).isSome → copiesReceived n u k = 1) := by
  intro n
  have hw := weight_direct (cfg := cfg) hm hs hb a u raw r payload hd
  obtain ⟨c1, c2⟩ := conservation cfg hT tab hook ls hl k b a raw honce u
  refine ⟨?_, ?_, ?_⟩
  · by_cases h : u = r ∧ (home r).isSome
    · rw [hw.1 h] at c1; exact c1
    · rw [hw.2 h] at c1; exact Nat.le_trans c1 (by omega)
  · intro h
    rw [hw.2 h] at c1; exact Nat.le_zero.1 c1
  · intro hq h1 h2
    rw [← hw.1 ⟨h1, h2⟩]; exact c2 hq

/-! ## C20 -/

/-- Message frame `raw` is for user `r`: a direct message to `r`, or a broadcast on a topic `r` is
subscribed to. -/
def AddressedTo (cfg : Cfg B σ) (sub : Bytes → Topic → Prop) (r raw : Bytes) : Prop :=
  match cfg.decode raw with
  | some (.direct r' _) => r' = r
  | some (.broadcast ts _) => ∃ t ∈ ts, cfg.valid t = true ∧ sub r t
  | _ => False

open Classical in
/-- The messages `a` published that are for `r`, in the order published. -/
noncomputable def sentTo (cfg : Cfg B σ) (sub : Bytes → Topic → Prop) (a r : Bytes)
    (ls : List (Label B H)) : List Nat :=
  ls.flatMap (fun
    | .publish _ a' id raw => if a' = a ∧ AddressedTo cfg sub r raw then [id] else []
    | _ => [])

/-- The messages from `a` that `r` received, in the order received. -/
def receivedFrom (n : Net B H σ) (a r : Bytes) : List Nat :=
  n.inbox.flatMap (fun e => if e.1 = r ∧ e.2.src = a then [e.2.id] else [])

theorem flatMap_congr' {A C : Type} (l : List A) (f g : A → List C) (h : ∀ a ∈ l, f a = g a) :
    l.flatMap f = l.flatMap g := by
  induction l with
  | nil => rfl
  | cons a l ih =>
    rw [List.flatMap_cons, List.flatMap_cons, h a (by simp), ih (fun x hx => h x (by simp [hx]))]

/-- **C20.** A synchronised mesh as in C18 and C19, any schedule, any number of other publishers. What
a connected user `r` has received from a user `a` (who publishes at one broker) is at every moment a
prefix of what `a` published for `r`, and at quiescence all of it: same order, nothing lost, nothing
twice. -/
theorem C20_fifo (cfg : Cfg B σ) (hT : Transparent cfg) (M : B → Prop)
    (tab : B → Table B H) (home : Bytes → Option B) (sub : Bytes → Topic → Prop)
    (hm : Mesh M tab home) (hts : TopicsInSync cfg.valid M tab home sub)
    (hus : UsersInSync M tab home) (hook : B → Dest B → σ) (ls : List (Label B H))
    (hl : ∀ l ∈ ls, Static cfg l) (a r : Bytes) (b0 bR : B) (hr : home r = some bR)
    (hpub : ∀ b a' id raw, Label.publish b a' id raw ∈ ls → M b ∧ (a' = a → b = b0)) :
    let n := (start tab hook).run cfg ls
    receivedFrom n a r <+: sentTo cfg sub a r ls ∧
    (Quiescent n → receivedFrom n a r = sentTo cfg sub a r ls) := by
  intro n
  have h := fifoInv_run cfg hT tab a r b0 bR M (fun b b' hb hc => hm.linkedOnly b b' hb hc)
    (fun b hb hc => by
      have := (hm.placed b r hb).1 hc
      rw [hr] at this; exact (Option.some.inj this).symm)
    ls (start tab hook) (staticInv_start cfg tab hook) (hopInv_start tab hook) []
    (fifoInv_start cfg tab hook a r b0 bR M) hl hpub
  have hexp : ls.flatMap (expected cfg tab a r) = sentTo cfg sub a r ls := by
    unfold sentTo
    apply flatMap_congr'
    intro l hmem
    cases l with
    | publish b a' id raw =>
      obtain ⟨hMb, _⟩ := hpub b a' id raw hmem
      have hg : Good cfg raw := hl _ hmem
      by_cases ha : a' = a
      · subst ha
        simp only [expected, if_true, true_and]
        cases hd : cfg.decode raw with
        | none => simp [Good, hd] at hg
        | some m =>
          cases m with
          | direct r' p =>
            have hw := weight_direct (cfg := cfg) hm hus hMb a' r raw r' p hd
            by_cases hrr : r' = r
            · subst hrr
              rw [hw.1 ⟨rfl, by rw [hr]; rfl⟩]
              simp [AddressedTo, hd]
            · rw [hw.2 (fun h => hrr h.1.symm)]
              simp [AddressedTo, hd, hrr]
          | broadcast ts p =>
            have hw := weight_broadcast (cfg := cfg) hm hts hMb a' r raw ts p hd
            by_cases hsub : ∃ t ∈ ts, sub r t
            · rw [hw.1 ⟨by rw [hr]; rfl, hsub⟩]
              have : AddressedTo cfg sub r raw := by
                obtain ⟨t, h1, h2⟩ := hsub
                simp only [AddressedTo, hd]
                exact ⟨t, h1, hts.validSubs r t h2, h2⟩
              rw [if_pos ⟨rfl, this⟩]; rfl
            · rw [hw.2 (fun h => hsub h.2)]
              have : ¬ AddressedTo cfg sub r raw := by
                simp only [AddressedTo, hd]
                rintro ⟨t, h1, _, h2⟩; exact hsub ⟨t, h1, h2⟩
              rw [if_neg (fun h => this h.2)]; rfl
          | _ => simp [Good, hd] at hg
      · simp [expected, ha]
    | _ => rfl
  have heq := h.eq
  rw [hexp, List.nil_append] at heq
  constructor
  · rw [← heq]
    simp only [List.append_assoc]
    exact List.prefix_append _ _
  · rintro ⟨hw, hp⟩
    simp only [n] at hw hp
    rw [hw, hp] at heq
    simpa [received, receivedFrom] using heq

/-! ## A concrete mesh meeting the hypotheses

Two brokers, built by the broker's own calls: users connect, the brokers connect to each other and
exchange user and topic syncs. -/

/-- Broker 0 before the exchange: user `[1]` on topic 0. -/
def pre0 : Table Nat Nat := (Conns.new 0).run [.addUser [1] 11 [0], .addBroker 1 101]

/-- Broker 1 before the exchange: user `[2]` on topic 0, user `[3]` on topic 1. -/
def pre1 : Table Nat Nat :=
  (Conns.new 1).run [.addUser [2] 12 [0], .addUser [3] 13 [1], .addBroker 0 100]

/-- Broker `b` after it applied the other's user and topic sync. -/
def demoTab (b : Nat) : Table Nat Nat :=
  if b = 0 then
    (pre0.applyUserSync pre1.direct).applyTopicSync 1
      ((pre1.getPartialTopicSync.2).getD (VMap.new 0))
  else
    (pre1.applyUserSync pre0.direct).applyTopicSync 0
      ((pre0.getPartialTopicSync.2).getD (VMap.new 0))

def demoHome (u : Bytes) : Option Nat :=
  if u = [1] then some 0 else if u = [2] then some 1 else if u = [3] then some 1 else none

def demoSub (u : Bytes) (t : Topic) : Prop :=
  (u = [1] ∧ t = 0) ∨ (u = [2] ∧ t = 0) ∨ (u = [3] ∧ t = 1)

/-- The toy configuration with the no-op hook. -/
def demoNet : Cfg Nat Nat :=
  { Broker.demoCfg with
    userHook := fun h m => (h, m, .process)
    brokerHook := fun h m => (h, m, .process) }

theorem demo_transparent : Transparent demoNet := fun _ _ => ⟨rfl, rfl⟩

theorem demo_mesh : Mesh (· < 2) demoTab demoHome := by
  have hb : ∀ b : Nat, b < 2 → b = 0 ∨ b = 1 := by omega
  have u0 : ∀ u, (demoTab 0).getUserConnection u = if [1] = u then some 11 else none := fun _ => rfl
  have u1 : ∀ u, (demoTab 1).getUserConnection u =
      if [3] = u then some 13 else if [2] = u then some 12 else none := fun _ => rfl
  have c0 : ∀ b, (demoTab 0).getBrokerConnection b = if 1 = b then some 101 else none := by
    intro b; show Option.map _ (if 1 = b then some _ else none) = _
    split <;> rfl
  have c1 : ∀ b, (demoTab 1).getBrokerConnection b = if 0 = b then some 100 else none := by
    intro b; show Option.map _ (if 0 = b then some _ else none) = _
    split <;> rfl
  refine ⟨?_, ?_, ?_, ?_, ?_⟩
  · intro b h; rcases hb b h with rfl | rfl <;> rfl
  · intro b b' h h' hne
    rcases hb b h with rfl | rfl <;> rcases hb b' h' with rfl | rfl <;> simp_all
  · intro b b' h
    rcases hb b h with rfl | rfl
    · rw [c0]; split
      · rename_i e; subst e; simp
      · simp
    · rw [c1]; split
      · rename_i e; subst e; simp
      · simp
  · intro u b; unfold demoHome
    split
    · intro h; cases h; decide
    · split
      · intro h; cases h; decide
      · split
        · intro h; cases h; decide
        · simp
  · intro b u h
    unfold demoHome
    rcases hb b h with rfl | rfl
    · rw [u0]
      by_cases e1 : [1] = u
      · subst e1; simp
      · have e1' : ¬ u = [1] := fun h => e1 h.symm
        simp only [e1, e1', if_false]
        by_cases e2 : u = [2] <;> by_cases e3 : u = [3] <;> simp [e2, e3]
    · rw [u1]
      by_cases e1 : [2] = u
      · subst e1; simp
      · by_cases e2 : [3] = u
        · subst e2; simp
        · have e1' : ¬ u = [2] := fun h => e1 h.symm
          have e2' : ¬ u = [3] := fun h => e2 h.symm
          simp only [e1, e2, e1', e2', if_false]
          split <;> simp

theorem demo_users : UsersInSync (· < 2) demoTab demoHome := by
  intro b u h
  have hb : b = 0 ∨ b = 1 := by omega
  unfold demoHome
  rcases hb with rfl | rfl
  · show Option.bind (if [2] = u then some _ else if [3] = u then some _ else
      if [1] = u then some _ else none) VV.value = _
    by_cases e1 : u = [1]
    · subst e1; rfl
    · by_cases e2 : u = [2]
      · subst e2; rfl
      · by_cases e3 : u = [3]
        · subst e3; rfl
        · rw [if_neg (Ne.symm e1), if_neg (Ne.symm e2), if_neg (Ne.symm e3)]
          simp [e1, e2, e3]
  · show Option.bind (if [1] = u then some _ else if [3] = u then some _ else
      if [2] = u then some _ else none) VV.value = _
    by_cases e1 : u = [1]
    · subst e1; rfl
    · by_cases e2 : u = [2]
      · subst e2; rfl
      · by_cases e3 : u = [3]
        · subst e3; rfl
        · rw [if_neg (Ne.symm e1), if_neg (Ne.symm e2), if_neg (Ne.symm e3)]
          simp [e1, e2, e3]

theorem demo_topics : TopicsInSync demoNet.valid (· < 2) demoTab demoHome demoSub := by
  have hb : ∀ b : Nat, b < 2 → b = 0 ∨ b = 1 := by omega
  have k0 : ∀ t, (demoTab 0).bcUsers.getKeysByValue t = if 0 = t then [[1]] else [] := by
    intro t
    by_cases h0 : t = 0
    · subst h0; decide
    · rw [if_neg (Ne.symm h0)]
      have : (demoTab 0).bcUsers.v2k.get t = none := by
        show (if 0 = t then some _ else none) = none
        rw [if_neg (Ne.symm h0)]
      simp only [RMap.getKeysByValue, this]
  have k1 : ∀ t, (demoTab 1).bcUsers.getKeysByValue t =
      if 1 = t then [[3]] else if 0 = t then [[2]] else [] := by
    intro t
    by_cases h1 : t = 1
    · subst h1; decide
    · by_cases h0 : t = 0
      · subst h0; decide
      · rw [if_neg (Ne.symm h1), if_neg (Ne.symm h0)]
        have : (demoTab 1).bcUsers.v2k.get t = none := by
          show (if 1 = t then some _ else if 0 = t then some _ else none) = none
          rw [if_neg (Ne.symm h1), if_neg (Ne.symm h0)]
        simp only [RMap.getKeysByValue, this]
  have p0 : ∀ t, (demoTab 0).bcBrokers.getKeysByValue t = if 1 = t then [1] else if 0 = t then [1] else [] := by
    intro t
    by_cases h1 : t = 1
    · subst h1; decide
    · by_cases h0 : t = 0
      · subst h0; decide
      · rw [if_neg (Ne.symm h1), if_neg (Ne.symm h0)]
        have : (demoTab 0).bcBrokers.v2k.get t = none := by
          show (if 1 = t then some _ else if 0 = t then some _ else none) = none
          rw [if_neg (Ne.symm h1), if_neg (Ne.symm h0)]
        simp only [RMap.getKeysByValue, this]
  have p1 : ∀ t, (demoTab 1).bcBrokers.getKeysByValue t = if 0 = t then [0] else [] := by
    intro t
    by_cases h0 : t = 0
    · subst h0; decide
    · rw [if_neg (Ne.symm h0)]
      have : (demoTab 1).bcBrokers.v2k.get t = none := by
        show (if 0 = t then some _ else none) = none
        rw [if_neg (Ne.symm h0)]
      simp only [RMap.getKeysByValue, this]
  refine ⟨?_, ?_, ?_⟩
  · intro b u t h hh
    unfold demoHome at hh
    rcases hb b h with rfl | rfl
    · split at hh
      · rename_i e; subst e; rw [k0]; simp only [demoSub]
        by_cases h0 : t = 0
        · subst h0; simp
        · simp [h0, Ne.symm h0]
      · split at hh
        · cases hh
        · split at hh <;> cases hh
    · split at hh
      · cases hh
      · split at hh
        · rename_i e; subst e; rw [k1]; simp only [demoSub]
          by_cases h1 : t = 1
          · subst h1; simp
          · by_cases h0 : t = 0
            · subst h0; simp
            · simp [h0, h1, Ne.symm h0, Ne.symm h1]
        · split at hh
          · rename_i e; subst e; rw [k1]; simp only [demoSub]
            by_cases h1 : t = 1
            · subst h1; simp
            · by_cases h0 : t = 0
              · subst h0; simp
              · simp [h0, h1, Ne.symm h0, Ne.symm h1]
          · cases hh
  · intro b b' t h h' hne
    rcases hb b h with rfl | rfl <;> rcases hb b' h' with rfl | rfl
    · exact absurd rfl hne
    · rw [p0]
      rintro ⟨u, hu, hs⟩
      rcases hs with ⟨rfl, rfl⟩ | ⟨rfl, rfl⟩ | ⟨rfl, rfl⟩ <;> simp
    · rw [p1]
      rintro ⟨u, hu, hs⟩
      rcases hs with ⟨rfl, rfl⟩ | ⟨rfl, rfl⟩ | ⟨rfl, rfl⟩
      · simp
      · simp
      · simp [demoHome] at hu
    · exact absurd rfl hne
  · rintro u t (⟨_, rfl⟩ | ⟨_, rfl⟩ | ⟨_, rfl⟩) <;> decide

/-- User `[1]` sends a direct message to `[2]` (message 7), a broadcast on topics 0 and 1 (message 8),
user `[2]` one on topic 1 (message 9), in some interleaving. -/
def demoSchedule : List (Label Nat Nat) :=
  [.publish 0 [1] 7 [3, 2], .publish 1 [2] 9 [4, 1], .publish 0 [1] 8 [4, 0, 1], .take 0 (.user [1]),
    .send 0 (.user [1]) true, .take 1 (.user [2]), .take 0 (.user [1]), .send 0 (.user [1]) true,
    .send 0 (.user [1]) true, .take 1 (.broker 0), .send 1 (.broker 0) true, .take 1 (.broker 0),
    .send 1 (.user [2]) true, .send 1 (.broker 0) true, .send 1 (.broker 0) true]

/-- The schedule meets the hypotheses of C18, C19 and C20 and ends with nothing in flight; `[2]` has
received message 7 then 8 from `[1]`, and `[3]` has 8 and 9. -/
example :
    (∀ l ∈ demoSchedule, Static demoNet l) ∧
    demoSchedule.filter (publishes 8) = [.publish 0 [1] 8 [4, 0, 1]] ∧
    demoSchedule.filter (publishes 7) = [.publish 0 [1] 7 [3, 2]] ∧
    (let n := (start demoTab (fun _ _ => 0)).run demoNet demoSchedule
     n.wire.length = 0 ∧ n.pend.length = 0 ∧ receivedFrom n [1] [2] = [7, 8] ∧
     copiesReceived n [3] 8 = 1 ∧ copiesReceived n [3] 9 = 1 ∧ copiesReceived n [1] 8 = 1 ∧
     copiesReceived n [2] 9 = 0) := by
  refine ⟨?_, rfl, rfl, by decide⟩
  intro l hl
  simp only [demoSchedule, List.mem_cons, List.not_mem_nil, or_false] at hl
  rcases hl with rfl | rfl | rfl | rfl | rfl | rfl | rfl | rfl | rfl | rfl | rfl | rfl | rfl | rfl | rfl
  all_goals first | rfl | trivial | skip
  · exact ⟨1, by simp, rfl⟩
  · exact ⟨0, by simp, rfl⟩

/-- C14 with inconsistent tables: each broker believes that `[9]` is at the other one and that the
other wants every topic. The frames stop after one link. -/
example :
    let t0 : Table Nat Nat := (Conns.new 0).run
      [.addBroker 1 101, .subscribeBroker 1 [0], .applyUserSync ((VMap.new 1).insert [9] 1)]
    let t1 : Table Nat Nat := (Conns.new 1).run
      [.addBroker 0 100, .subscribeBroker 0 [0], .applyUserSync ((VMap.new 0).insert [9] 0)]
    let n := (start (fun b => if b = 0 then t0 else t1) (fun _ _ => 0)).run demoNet
      [.publish 0 [1] 7 [3, 9], .publish 0 [1] 8 [4, 0], .take 0 (.user [1]), .send 0 (.user [1]) true,
       .take 0 (.user [1]), .send 0 (.user [1]) true]
    n.wire.map (fun i => (i.here, i.pkt.id, i.pkt.hops)) = [(1, 7, 1), (1, 8, 1)] ∧
    ((n.run demoNet [.take 1 (.broker 0), .take 1 (.broker 0)]).wire.length = 0 ∧
     (n.run demoNet [.take 1 (.broker 0), .take 1 (.broker 0)]).pend.length = 0) := by
  decide

end Verif.Props.Network

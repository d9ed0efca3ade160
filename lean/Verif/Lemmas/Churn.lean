import Verif.Props.Network

/-!
# A message on its way while routing tables change

The tables may be any that keep the way of the message to one recipient open; see `Reaches`.
-/

set_option linter.unusedSectionVars false

namespace Verif.Net
open Verif Verif.Conns Verif.Broker Verif.Props.Network

variable {B H σ : Type} [DecidableEq B] [DecidableEq H] [LT B] [DecidableLT B]

/-- After this frame the receive loop of `frm` goes on, whatever the tables. -/
def Passes (cfg : Cfg B σ) (H : Type) [DecidableEq H] (frm : Dest B) (raw : Bytes) : Prop :=
  ∀ (s : Table B H) (x : σ), (route cfg s x frm raw).2.2 = true

/-- With these tables the frame `raw`, published at `b0`, gets to `u`, connected to `h` only. -/
structure Reaches (cfg : Cfg B σ) (tab : B → Table B H) (u : Bytes) (h b0 : B) (raw : Bytes) : Prop where
  here : ((tab h).getUserConnection u).isSome
  only : ∀ x, x ≠ h → (tab x).getUserConnection u = none
  self : (tab h).getBrokerConnection h = none
  link : b0 ≠ h → ((tab b0).getBrokerConnection h).isSome
  first : ∀ a, (if b0 = h then Dest.user u else Dest.broker h) ∈ dests cfg (tab b0) (.user a) raw
  second : ∀ b', Dest.user u ∈ dests cfg (tab h) (.broker b') raw

section
variable (u : Bytes) (h : B) (k : Nat)

/-- Copies of message `k` that `u` will get through this frame. -/
def wayI (i : Item B) : Nat :=
  if i.pkt.id = k then (match i.frm with | .user _ => 1 | .broker _ => if i.here = h then 1 else 0) else 0

/-- Copies of message `k` that `u` will get through this send. -/
def wayT (t : Todo B) : Nat :=
  if t.pkt.id = k then
    (match t.dest with
     | .user u' => if u' = u ∧ t.here = h then 1 else 0
     | .broker b' => if b' = h ∧ t.here ≠ h then 1 else 0)
  else 0

/-- Copies of message `k` that `u` has or will get. -/
def way (n : Net B H σ) : Nat :=
  copiesReceived n u k + (n.wire.map (wayI h k)).sum + (n.pend.map (wayT u h k)).sum
end

/-- Message `k` is the frame `raw` that `a` publishes at `b0`; it comes to `h` from `b0`; frames that end a receive loop
come neither from `a` nor from brokers. -/
structure Underway (cfg : Cfg B σ) (h : B) (k : Nat) (b0 : B) (a raw : Bytes) (n : Net B H σ) : Prop where
  hop : HopInv n
  wireK : ∀ i ∈ n.wire, i.pkt.id = k → i.pkt.raw = raw ∧ ∀ a', i.frm = .user a' → i.here = b0 ∧ a' = a
  pendK : ∀ t ∈ n.pend, t.pkt.id = k → t.pkt.raw = raw ∧ ∀ a', t.frm = .user a' → t.here = b0 ∧ a' = a
  wireH : ∀ i ∈ n.wire, i.pkt.id = k → ∀ b', i.frm = .broker b' → b' = b0 ∧ (i.here = h → b0 ≠ h)
  pendH : ∀ t ∈ n.pend, t.pkt.id = k → ∀ b', t.frm = .broker b' → b' = b0 ∧ (t.here = h → b0 ≠ h)
  wireB : ∀ i ∈ n.wire, ∀ b', i.frm = .broker b' → Passes cfg H i.frm i.pkt.raw
  wireA : ∀ i ∈ n.wire, i.here = b0 → i.frm = .user a → Passes cfg H i.frm i.pkt.raw
  pendB : ∀ t ∈ n.pend, ∀ b', Passes cfg H (.broker b') t.pkt.raw

/-- What may happen: see `Underway`; no send to `u` or to `h` fails. -/
def Fine (cfg : Cfg B σ) (u : Bytes) (h : B) (k : Nat) (b0 : B) (a raw : Bytes) (n : Net B H σ) : Label B H → Prop
  | .publish b u' id raw' => (id = k → b = b0 ∧ u' = a ∧ raw' = raw) ∧ (b = b0 → u' = a → Passes cfg H (.user a) raw')
  | .originate _ b' id raw' => id ≠ k ∧ Passes cfg H (.broker b') raw'
  | .take _ _ => True
  | .send b frm ok => ok = true ∨
      ∀ t, n.pend.find? (Todo.for' b frm) = some t → t.dest ≠ .user u ∧ t.dest ≠ .broker h
  | .setTable _ _ => False

theorem route_passes (cfg : Cfg B σ) (hT : Transparent cfg) (s : Table B H) (x : σ) (frm d : Dest B) (raw : Bytes)
    (hd : d ∈ (route cfg s x frm raw).2.1) (b' : B) : Passes cfg H (.broker b') raw := by
  intro s' x'
  simp only [route, brokerRoute]
  cases hm : cfg.decode raw with
  | none => cases frm <;> simp [route, userRoute, brokerRoute, hm] at hd
  | some m =>
    simp only [(hT x' m).2]
    cases m with
    | direct r p => rfl
    | broadcast ts p => rfl
    | userSync p => cases frm <;> simp [route, userRoute, brokerRoute, hm, (hT x _).1, (hT x _).2] at hd
    | topicSync p => cases frm <;> simp [route, userRoute, brokerRoute, hm, (hT x _).1, (hT x _).2] at hd
    | _ => rfl

theorem passes_good (cfg : Cfg B σ) (hT : Transparent cfg) (frm : Dest B) (raw : Bytes) (hg : Good cfg raw) :
    Passes cfg H frm raw := fun s x => by rw [route_good cfg hT s x frm raw hg]

/-- What a loop does with its next frame. -/
theorem take_cases (cfg : Cfg B σ) (n : Net B H σ) (b : B) (frm : Dest B) :
    n.step cfg (.take b frm) = n ∨
    ∃ i l1 l2, n.wire = l1 ++ i :: l2 ∧ i.here = b ∧ i.frm = frm ∧
      ∃ hook', n.step cfg (.take b frm) =
        { n with hook := hook',
                 wire := if (route cfg (n.tab b) (n.hook b frm) frm i.pkt.raw).2.2 then l1 ++ l2
                         else n.wire.filter (fun i => !Item.for' b frm i),
                 pend := n.pend ++ (route cfg (n.tab b) (n.hook b frm) frm i.pkt.raw).2.1.map
                   (fun d => ⟨b, frm, i.pkt, d⟩) } := by
  simp only [step]
  split
  · exact Or.inl rfl
  · cases hf : n.wire.find? (Item.for' b frm) with
    | none => exact Or.inl rfl
    | some i =>
      right
      obtain ⟨l1, l2, e, hpi, hl1, hera⟩ := find?_split hf
      obtain ⟨h1, h2⟩ := item_for hpi
      refine ⟨i, l1, l2, e, h1, h2, ?_⟩
      simp only [hera]
      exact ⟨_, rfl⟩

/-- What a loop does with its next send, which succeeds or not. -/
theorem send_cases' (cfg : Cfg B σ) (n : Net B H σ) (b : B) (frm : Dest B) (ok : Bool) :
    n.step cfg (.send b frm ok) = n ∨
    ∃ t l1 l2, n.pend.find? (Todo.for' b frm) = some t ∧ n.pend = l1 ++ t :: l2 ∧ t.here = b ∧ t.frm = frm ∧
      (((lookup (n.tab b) t.dest = none ∨ ok = false) ∧
          n.step cfg (.send b frm ok) = { n with pend := l1 ++ l2 }) ∨
       ((lookup (n.tab b) t.dest).isSome ∧ ∃ u, t.dest = .user u ∧
          n.step cfg (.send b frm ok) =
            { n with pend := l1 ++ l2, inbox := n.inbox ++ [(u, t.pkt)] }) ∨
       ((lookup (n.tab b) t.dest).isSome ∧ ∃ b', t.dest = .broker b' ∧
          n.step cfg (.send b frm ok) =
            { n with pend := l1 ++ l2,
                     wire := n.wire ++ [⟨b', .broker b, { t.pkt with hops := t.pkt.hops + 1 }⟩] })) := by
  simp only [step]
  cases hf : n.pend.find? (Todo.for' b frm) with
  | none => exact Or.inl rfl
  | some t =>
    right
    obtain ⟨l1, l2, e, hpt, hl1, hera⟩ := find?_split hf
    obtain ⟨h1, h2⟩ := todo_for hpt
    refine ⟨t, l1, l2, rfl, e, h1, h2, ?_⟩
    simp only [hera]
    cases ok with
    | false => left; exact ⟨Or.inr rfl, by simp⟩
    | true =>
      cases hl : lookup (n.tab b) t.dest with
      | none => left; exact ⟨Or.inl rfl, rfl⟩
      | some c =>
        right
        cases hd : t.dest with
        | user u => left; exact ⟨rfl, u, rfl, rfl⟩
        | broker b' => right; exact ⟨rfl, b', rfl, rfl⟩

theorem mem_split {A : Type} {l l1 l2 : List A} {a x : A} (e : l = l1 ++ a :: l2) (hx : x ∈ l1 ++ l2) : x ∈ l := by
  rw [e]; simp only [List.mem_append, List.mem_cons] at hx ⊢
  rcases hx with hx | hx
  · exact Or.inl hx
  · exact Or.inr (Or.inr hx)

theorem underway_step (cfg : Cfg B σ) (hT : Transparent cfg) {u : Bytes} {h : B} {k : Nat} {b0 : B} {a raw : Bytes}
    {n : Net B H σ} (hn : Underway cfg h k b0 a raw n) (hr : Reaches cfg n.tab u h b0 raw) (l : Label B H) (hl : Fine cfg u h k b0 a raw n l) :
    Underway cfg h k b0 a raw (n.step cfg l) := by
  have hhop := hopInv_step cfg n hn.hop l
  cases l with
  | setTable => exact hl.elim
  | publish b u' id raw' =>
    obtain ⟨h1, h2⟩ := hl
    refine ⟨hhop, ?_, hn.pendK, ?_, hn.pendH, ?_, ?_, hn.pendB⟩
    · intro i hi hk
      simp only [step, List.mem_append, List.mem_singleton] at hi
      rcases hi with hi | rfl
      · exact hn.wireK i hi hk
      · obtain ⟨e1, e2, e3⟩ := h1 hk
        exact ⟨e3, fun a' e => ⟨e1, by cases e; exact e2⟩⟩
    · intro i hi hk b' hf
      simp only [step, List.mem_append, List.mem_singleton] at hi
      rcases hi with hi | rfl
      · exact hn.wireH i hi hk b' hf
      · cases hf
    · intro i hi b' hf
      simp only [step, List.mem_append, List.mem_singleton] at hi
      rcases hi with hi | rfl
      · exact hn.wireB i hi b' hf
      · cases hf
    · intro i hi hh hf
      simp only [step, List.mem_append, List.mem_singleton] at hi
      rcases hi with hi | rfl
      · exact hn.wireA i hi hh hf
      · have hu : u' = a := by cases hf; rfl
        subst hu; exact h2 hh rfl
  | originate b b' id raw' =>
    obtain ⟨h1, h2⟩ := hl
    refine ⟨hhop, ?_, hn.pendK, ?_, hn.pendH, ?_, ?_, hn.pendB⟩
    · intro i hi hk
      simp only [step, List.mem_append, List.mem_singleton] at hi
      rcases hi with hi | rfl
      · exact hn.wireK i hi hk
      · exact absurd hk h1
    · intro i hi hk
      simp only [step, List.mem_append, List.mem_singleton] at hi
      rcases hi with hi | rfl
      · exact hn.wireH i hi hk
      · exact absurd hk h1
    · intro i hi b'' hf
      simp only [step, List.mem_append, List.mem_singleton] at hi
      rcases hi with hi | rfl
      · exact hn.wireB i hi b'' hf
      · exact h2
    · intro i hi hh hf
      simp only [step, List.mem_append, List.mem_singleton] at hi
      rcases hi with hi | rfl
      · exact hn.wireA i hi hh hf
      · cases hf
  | take b frm =>
    rcases take_cases cfg n b frm with e | ⟨i, l1, l2, e, hb, hf, hook', e'⟩
    · rw [e]; exact hn
    · rw [e'] at hhop ⊢
      have hi : i ∈ n.wire := by rw [e]; simp
      have hw : ∀ j ∈ (if (route cfg (n.tab b) (n.hook b frm) frm i.pkt.raw).2.2 then l1 ++ l2
          else n.wire.filter (fun i => !Item.for' b frm i)), j ∈ n.wire := by
        intro j hj
        split at hj
        · exact mem_split e hj
        · exact (List.mem_filter.1 hj).1
      refine ⟨hhop, fun j hj => hn.wireK j (hw j hj), ?_, fun j hj => hn.wireH j (hw j hj), ?_,
        fun j hj => hn.wireB j (hw j hj), fun j hj => hn.wireA j (hw j hj), ?_⟩
      · intro t ht hk
        simp only [List.mem_append, List.mem_map] at ht
        rcases ht with ht | ⟨d, _, rfl⟩
        · exact hn.pendK t ht hk
        · obtain ⟨h1, h2⟩ := hn.wireK i hi hk
          exact ⟨h1, fun a' e => by rw [← hb]; exact h2 a' (by rw [hf]; exact e)⟩
      · intro t ht hk b' hfr
        simp only [List.mem_append, List.mem_map] at ht
        rcases ht with ht | ⟨d, _, rfl⟩
        · exact hn.pendH t ht hk b' hfr
        · have := hn.wireH i hi hk b' (by rw [hf]; exact hfr)
          rw [hb] at this; exact this
      · intro t ht b'
        simp only [List.mem_append, List.mem_map] at ht
        rcases ht with ht | ⟨d, hd, rfl⟩
        · exact hn.pendB t ht b'
        · exact route_passes cfg hT _ _ _ _ _ hd b'
  | send b frm ok =>
    rcases send_cases' cfg n b frm ok with e | ⟨t, l1, l2, _, e, hb, hf, hc⟩
    · rw [e]; exact hn
    · have ht : t ∈ n.pend := by rw [e]; simp
      rcases hc with ⟨_, e'⟩ | ⟨_, u', _, e'⟩ | ⟨hsome, b', hd, e'⟩
      · rw [e'] at hhop ⊢
        exact ⟨hhop, hn.wireK, fun x hx => hn.pendK x (mem_split e hx), hn.wireH,
          fun x hx => hn.pendH x (mem_split e hx), hn.wireB, hn.wireA,
          fun x hx => hn.pendB x (mem_split e hx)⟩
      · rw [e'] at hhop ⊢
        exact ⟨hhop, hn.wireK, fun x hx => hn.pendK x (mem_split e hx), hn.wireH,
          fun x hx => hn.pendH x (mem_split e hx), hn.wireB, hn.wireA,
          fun x hx => hn.pendB x (mem_split e hx)⟩
      · rw [e'] at hhop ⊢
        refine ⟨hhop, ?_, fun x hx => hn.pendK x (mem_split e hx), ?_, fun x hx => hn.pendH x (mem_split e hx), ?_, ?_,
          fun x hx => hn.pendB x (mem_split e hx)⟩
        · intro i hi hk
          simp only [List.mem_append, List.mem_singleton] at hi
          rcases hi with hi | rfl
          · exact hn.wireK i hi hk
          · exact ⟨(hn.pendK t ht hk).1, fun a' e => (nomatch e)⟩
        · intro i hi hk b'' hf'
          simp only [List.mem_append, List.mem_singleton] at hi
          rcases hi with hi | rfl
          · exact hn.wireH i hi hk b'' hf'
          · have hb0 : b = b0 := by
              cases hfr : t.frm with
              | user a' => rw [← hb]; exact ((hn.pendK t ht hk).2 a' hfr).1
              | broker b3 => obtain ⟨_, h3⟩ := hn.hop.last t ht b3 hfr; rw [hd] at h3; cases h3
            have hbb : b'' = b := by cases hf'; rfl
            refine ⟨hbb.trans hb0, fun e1 e2 => ?_⟩
            have e3 : b' = h := e1
            have := hr.self
            rw [hd, e3, hb0, e2] at hsome
            rw [show lookup (n.tab h) (.broker h) = none from this] at hsome; cases hsome
        · intro i hi b'' hf'
          simp only [List.mem_append, List.mem_singleton] at hi
          rcases hi with hi | rfl
          · exact hn.wireB i hi b'' hf'
          · exact hn.pendB t ht b
        · intro i hi hh hf'
          simp only [List.mem_append, List.mem_singleton] at hi
          rcases hi with hi | rfl
          · exact hn.wireA i hi hh hf'
          · cases hf'

/-- The destinations of a frame of message `k` take its copy on. -/
theorem way_dests (cfg : Cfg B σ) {tab : B → Table B H} {u : Bytes} {h b0 : B} {raw : Bytes} (k : Nat)
    (hr : Reaches cfg tab u h b0 raw) (i : Item B) (hk : i.pkt.id = k) (hraw : i.pkt.raw = raw)
    (hu : ∀ a', i.frm = .user a' → i.here = b0) :
    (((dests cfg (tab i.here) i.frm i.pkt.raw).map (fun d => (⟨i.here, i.frm, i.pkt, d⟩ : Todo B))).map
      (wayT u h k)).sum = wayI h k i := by
  rw [List.map_map, hraw]
  cases hf : i.frm with
  | user a' =>
    have hb : i.here = b0 := hu a' hf
    rw [hb]
    have h1 := sum_single (wayT u h k ∘ fun d => (⟨b0, .user a', i.pkt, d⟩ : Todo B))
      (dests cfg (tab b0) (.user a') raw) (nodup_dests _ _ _ _) (if b0 = h then Dest.user u else Dest.broker h) (by
        intro d _ hne
        simp only [Function.comp, wayT, hk, if_true]
        by_cases e : b0 = h
        · rw [if_pos e] at hne
          cases d with
          | user u' => exact if_neg (fun e' => hne (by rw [e'.1]))
          | broker b' => exact if_neg (fun e' => e'.2 e)
        · rw [if_neg e] at hne
          cases d with
          | user u' => exact if_neg (fun e' => e e'.2)
          | broker b' => exact if_neg (fun e' => hne (by rw [e'.1])))
    rw [h1.1 (hr.first a')]
    by_cases e : b0 = h
    · simp [wayT, wayI, hk, hf, e]
    · simp [wayT, wayI, hk, hf, e]
  | broker b' =>
    by_cases e : i.here = h
    · rw [e]
      have h1 := sum_single (wayT u h k ∘ fun d => (⟨h, .broker b', i.pkt, d⟩ : Todo B))
        (dests cfg (tab h) (.broker b') raw) (nodup_dests _ _ _ _) (Dest.user u) (by
          intro d _ hne
          simp only [Function.comp, wayT, hk, if_true]
          cases d with
          | user u' => exact if_neg (fun e' => hne (by rw [e'.1]))
          | broker b' => exact if_neg (fun e' => e'.2 rfl))
      rw [h1.1 (hr.second b')]
      simp [wayT, wayI, hk, hf, e]
    · have : wayI h k i = 0 := by simp [wayI, hk, hf, e]
      rw [this]
      apply sum_zero
      intro d hd
      cases d with
      | user u' => simp [wayT, e]
      | broker b'' => exact absurd hd (dests_broker_users_only cfg _ _ _ _)

theorem sum_filter_zero {A : Type} (p : A → Bool) (f : A → Nat) (w : List A) (hall : ∀ j ∈ w, p j = true → f j = 0) :
    ((w.filter (fun j => !p j)).map f).sum = (w.map f).sum := by
  induction w with
  | nil => rfl
  | cons j w ih =>
    have := ih (fun x hx => hall x (by simp [hx]))
    rw [List.filter_cons]
    cases hfor : p j with
    | true => simp [hall j (by simp) hfor, this]
    | false => simp [this]

/-- The copies `u` has or will get are as many as were published. -/
theorem way_step (cfg : Cfg B σ) (hT : Transparent cfg) {u : Bytes} {h : B} {k : Nat} {b0 : B} {a raw : Bytes}
    (hg : Good cfg raw) {n : Net B H σ} (hn : Underway cfg h k b0 a raw n) (hr : Reaches cfg n.tab u h b0 raw)
    (l : Label B H) (hl : Fine cfg u h k b0 a raw n l) :
    way u h k (n.step cfg l) = way u h k n + if publishes k l then 1 else 0 := by
  cases l with
  | setTable => exact hl.elim
  | publish b u' id raw' =>
    unfold way copiesReceived
    simp only [step, List.map_append, List.sum_append, List.map_cons, List.map_nil, List.sum_cons, List.sum_nil,
      publishes, decide_eq_true_eq]
    by_cases hk : id = k
    · simp [wayI, hk]; omega
    · simp [wayI, hk]
  | originate b b' id raw' =>
    unfold way copiesReceived
    simp [step, publishes, wayI, hl.1]
  | take b frm =>
    rcases take_cases cfg n b frm with e | ⟨i, l1, l2, e, hb, hf, hook', e'⟩
    · rw [e]; simp [publishes]
    · rw [e']
      have hi : i ∈ n.wire := by rw [e]; simp
      unfold way copiesReceived
      simp only [publishes, Bool.false_eq_true, if_false, Nat.add_zero, List.map_append, List.sum_append]
      by_cases hk : i.pkt.id = k
      · obtain ⟨h1, h2⟩ := hn.wireK i hi hk
        have hroute := route_good cfg hT (n.tab b) (n.hook b frm) frm i.pkt.raw (by rw [h1]; exact hg)
        rw [hroute]
        have hd := way_dests cfg k hr i hk h1 (fun a' e => (h2 a' e).1)
        rw [hb, hf] at hd
        simp only [if_true]
        rw [hd, e, sum_split]
        omega
      · have hz : (((route cfg (n.tab b) (n.hook b frm) frm i.pkt.raw).2.1.map
            (fun d => (⟨b, frm, i.pkt, d⟩ : Todo B))).map (wayT u h k)).sum = 0 := by
          rw [List.map_map]
          apply sum_zero
          intro d _
          simp [wayT, hk]
        have hi0 : wayI h k i = 0 := by simp [wayI, hk]
        rw [hz]
        split
        · rw [e, sum_split, hi0]; omega
        · rename_i hdead
          have : ((n.wire.filter (fun i => !Item.for' b frm i)).map (wayI h k)).sum = (n.wire.map (wayI h k)).sum := by
            have hall : ∀ j ∈ n.wire, Item.for' b frm j = true → wayI h k j = 0 := by
              intro j hj hfor
              obtain ⟨j1, j2⟩ := item_for hfor
              by_cases hjk : j.pkt.id = k
              · exfalso
                apply hdead
                obtain ⟨_, h2⟩ := hn.wireK j hj hjk
                cases hfr : frm with
                | broker b' =>
                  have := hn.wireB i hi b' (by rw [hf, hfr]) (n.tab b) (n.hook b frm)
                  rw [hf] at this; rw [← hfr]; exact this
                | user a' =>
                  obtain ⟨h3, h4⟩ := h2 a' (by rw [j2, hfr])
                  have := hn.wireA i hi (by rw [hb, ← j1]; exact h3) (by rw [hf, hfr, h4]) (n.tab b) (n.hook b frm)
                  rw [hf] at this; rw [← hfr]; exact this
              · simp [wayI, hjk]
            exact sum_filter_zero _ _ _ hall
          rw [this]; omega
  | send b frm ok =>
    rcases send_cases' cfg n b frm ok with e | ⟨t, l1, l2, hfind, e, hb, hf, hc⟩
    · rw [e]; simp [publishes]
    · have ht : t ∈ n.pend := by rw [e]; simp
      have hsum : (n.pend.map (wayT u h k)).sum = ((l1 ++ l2).map (wayT u h k)).sum + wayT u h k t := by
        rw [e, sum_split]
      have hbrk : ∀ b', t.dest = .broker b' → t.pkt.id = k → t.here = b0 := by
        intro b' hd hk
        obtain ⟨_, h2⟩ := hn.pendK t ht hk
        cases hfr : t.frm with
        | user a' => exact (h2 a' hfr).1
        | broker b'' => obtain ⟨_, h3⟩ := hn.hop.last t ht b'' hfr; rw [hd] at h3; cases h3
      rcases hc with ⟨hnone, e'⟩ | ⟨hsome, u', hd, e'⟩ | ⟨hsome, b', hd, e'⟩
      · rw [e']
        have hz : wayT u h k t = 0 := by
          by_cases hk : t.pkt.id = k
          · have hbad : lookup (n.tab b) t.dest = none ∨ (t.dest ≠ .user u ∧ t.dest ≠ .broker h) := by
              rcases hnone with h1 | h1
              · exact Or.inl h1
              · rcases hl with h2 | h2
                · rw [h1] at h2; cases h2
                · exact Or.inr (h2 t hfind)
            simp only [wayT, hk, if_true]
            cases hd : t.dest with
            | user u' =>
              refine if_neg (fun e1 => ?_)
              rw [hd] at hbad
              rcases hbad with h1 | h1
              · have := hr.here
                rw [← e1.1, ← e1.2, hb] at this
                rw [show (n.tab b).getUserConnection u' = none from h1] at this; cases this
              · exact h1.1 (by rw [e1.1])
            | broker b' =>
              refine if_neg (fun e1 => ?_)
              rw [hd] at hbad
              rcases hbad with h1 | h1
              · have h0 := hbrk b' hd hk
                have := hr.link (by rw [← h0]; exact e1.2)
                rw [← h0, hb, ← e1.1] at this
                rw [show (n.tab b).getBrokerConnection b' = none from h1] at this; cases this
              · exact h1.2 (by rw [e1.1])
          · simp [wayT, hk]
        unfold way copiesReceived
        simp only [publishes, Bool.false_eq_true, if_false]
        omega
      · rw [e']
        unfold way copiesReceived
        simp only [publishes, Bool.false_eq_true, if_false, List.countP_append, List.countP_cons, List.countP_nil]
        have hval : wayT u h k t = if (u' = u ∧ t.pkt.id = k) then 1 else 0 := by
          simp only [wayT, hd]
          by_cases hk : t.pkt.id = k
          · by_cases hu : u' = u
            · have hh : t.here = h := by
                refine Classical.byContradiction fun hne => ?_
                have := hr.only t.here hne
                rw [hb, ← hu] at this
                rw [hd] at hsome
                rw [show lookup (n.tab b) (.user u') = none from this] at hsome; cases hsome
              simp [hk, hu, hh]
            · simp [hk, hu]
          · simp [hk]
        rw [hsum, hval]
        simp only [decide_eq_true_eq]
        omega
      · rw [e']
        unfold way copiesReceived
        simp only [publishes, Bool.false_eq_true, if_false, List.map_append, List.sum_append, List.map_cons,
          List.map_nil, List.sum_cons, List.sum_nil]
        have hval : wayT u h k t = wayI h k ⟨b', .broker b, ⟨t.pkt.id, t.pkt.src, t.pkt.raw, t.pkt.hops + 1⟩⟩ := by
          simp only [wayT, wayI, hd]
          by_cases hk : t.pkt.id = k
          · by_cases hh : b' = h
            · have hne : t.here ≠ h := by
                intro e1
                have := hr.self
                rw [← e1, hb] at this
                rw [hd, hh, ← e1, hb] at hsome
                rw [show lookup (n.tab b) (.broker b) = none from this] at hsome; cases hsome
              simp [hk, hh, hne]
            · simp [hk, hh]
          · simp [hk]
        rw [List.map_append, List.sum_append] at hsum
        rw [hsum, hval]
        omega

/-- What lies on the way of message `k` to `u` is read from `a` by `b0`, or from `b0` by `h`. -/
theorem way_wire (cfg : Cfg B σ) {h : B} {k : Nat} {b0 : B} {a raw : Bytes} {n : Net B H σ}
    (hn : Underway cfg h k b0 a raw n) {i : Item B} (hi : i ∈ n.wire) (hw : wayI h k i ≠ 0) :
    (i.here = b0 ∧ i.frm = .user a) ∨ (b0 ≠ h ∧ i.here = h ∧ i.frm = .broker b0) := by
  unfold wayI at hw
  by_cases hk : i.pkt.id = k
  · rw [if_pos hk] at hw
    cases hf : i.frm with
    | user a' =>
      obtain ⟨h1, h2⟩ := (hn.wireK i hi hk).2 a' hf
      exact Or.inl ⟨h1, by rw [h2]⟩
    | broker b' =>
      rw [hf] at hw
      have hh : i.here = h := Classical.byContradiction fun e => hw (if_neg e)
      obtain ⟨h1, h2⟩ := hn.wireH i hi hk b' hf
      exact Or.inr ⟨h2 hh, hh, by rw [h1]⟩
  · rw [if_neg hk] at hw; exact absurd rfl hw

theorem way_pend (cfg : Cfg B σ) {u : Bytes} {h : B} {k : Nat} {b0 : B} {a raw : Bytes} {n : Net B H σ}
    (hn : Underway cfg h k b0 a raw n) {t : Todo B} (ht : t ∈ n.pend) (hw : wayT u h k t ≠ 0) :
    (t.here = b0 ∧ t.frm = .user a) ∨ (b0 ≠ h ∧ t.here = h ∧ t.frm = .broker b0) := by
  unfold wayT at hw
  by_cases hk : t.pkt.id = k
  · rw [if_pos hk] at hw
    cases hf : t.frm with
    | user a' =>
      obtain ⟨h1, h2⟩ := (hn.pendK t ht hk).2 a' hf
      exact Or.inl ⟨h1, by rw [h2]⟩
    | broker b' =>
      obtain ⟨_, hd⟩ := hn.hop.last t ht b' hf
      cases hdd : t.dest with
      | broker b'' => rw [hdd] at hd; cases hd
      | user u' =>
        rw [hdd] at hw
        have hh : t.here = h := Classical.byContradiction fun e => hw (if_neg (fun e' => e e'.2))
        obtain ⟨h1, h2⟩ := hn.pendH t ht hk b' hf
        exact Or.inr ⟨h2 hh, hh, by rw [h1]⟩
  · rw [if_neg hk] at hw; exact absurd rfl hw

theorem sum_eraseIdx {A : Type} (f : A → Nat) (w : List A) (i : Nat) (x : A) (hx : w[i]? = some x) (h0 : f x = 0) :
    ((w.eraseIdx i).map f).sum = (w.map f).sum := by
  induction w generalizing i with
  | nil => simp at hx
  | cons y w ih =>
    cases i with
    | zero => simp only [List.getElem?_cons_zero, Option.some.injEq] at hx; subst hx; simp [h0]
    | succ i =>
      simp only [List.getElem?_cons_succ] at hx
      simp [ih i hx]

theorem hopInv_sub {n n' : Net B H σ} (hn : HopInv n) (hw : ∀ i ∈ n'.wire, i ∈ n.wire) (hp : ∀ t ∈ n'.pend, t ∈ n.pend)
    (hi : n'.inbox = n.inbox) : HopInv n' :=
  ⟨fun i h => hn.wire i (hw i h), fun t h => hn.pend t (hp t h), fun t h => hn.last t (hp t h), by rw [hi]; exact hn.inbox⟩

theorem underway_sub {cfg : Cfg B σ} {h : B} {k : Nat} {b0 : B} {a raw : Bytes} {n n' : Net B H σ}
    (hn : Underway cfg h k b0 a raw n) (hw : ∀ i ∈ n'.wire, i ∈ n.wire) (hp : ∀ t ∈ n'.pend, t ∈ n.pend)
    (hi : n'.inbox = n.inbox) : Underway cfg h k b0 a raw n' :=
  ⟨hopInv_sub hn.hop hw hp hi, fun i h => hn.wireK i (hw i h), fun t h => hn.pendK t (hp t h), fun i h => hn.wireH i (hw i h),
    fun t h => hn.pendH t (hp t h), fun i h => hn.wireB i (hw i h), fun i h => hn.wireA i (hw i h),
    fun t h => hn.pendB t (hp t h)⟩

end Verif.Net

import Verif.Lemmas.Churn

/-!
# The order of messages while routing tables change

What one publisher sends to one user passes one or two receive loops, each a queue. The wanted messages in all these
queues, the one nearest to the user first, are what has been published, in order.
-/

set_option linter.unusedSectionVars false

namespace Verif.Net
open Verif Verif.Conns Verif.Broker Verif.Props.Network

variable {B H σ : Type} [DecidableEq B] [DecidableEq H] [LT B] [DecidableLT B]

section
variable (W : Bytes → Bool) (a : Bytes)

/-- A message of `a` that counts. -/
def want (p : Pkt) : Bool := decide (p.src = a) && W p.raw

/-- What identifies a message. -/
def key (p : Pkt) : Nat × Bytes := (p.id, p.raw)

/-- The messages of `a` that count among the frames a loop has not read. -/
def fI (b : B) (frm : Dest B) (w : List (Item B)) : List (Nat × Bytes) :=
  (w.filter (fun i => Item.for' b frm i && want W a i.pkt)).map (fun i => key i.pkt)

/-- The messages of `a` that count among the sends to `d` that a loop still has to make. -/
def fT (b : B) (frm d : Dest B) (w : List (Todo B)) : List (Nat × Bytes) :=
  (w.filter (fun t => Todo.for' b frm t && decide (t.dest = d) && want W a t.pkt)).map (fun t => key t.pkt)

/-- The messages of `a` that count among what `u` has received. -/
def got (u : Bytes) (w : List (Bytes × Pkt)) : List (Nat × Bytes) :=
  (w.filter (fun x => decide (x.1 = u) && want W a x.2)).map (fun x => key x.2)

variable {W a}

theorem fI_append (b : B) (frm : Dest B) (w w' : List (Item B)) : fI W a b frm (w ++ w') = fI W a b frm w ++ fI W a b frm w' := by
  simp [fI]

theorem fT_append (b : B) (frm d : Dest B) (w w' : List (Todo B)) :
    fT W a b frm d (w ++ w') = fT W a b frm d w ++ fT W a b frm d w' := by simp [fT]

theorem fI_none (b : B) (frm : Dest B) (w : List (Item B)) (h : ∀ x ∈ w, Item.for' b frm x = false) : fI W a b frm w = [] := by
  have : w.filter (fun i => Item.for' b frm i && want W a i.pkt) = [] :=
    List.filter_eq_nil_iff.2 (fun x hx => by simp [h x hx])
  simp [fI, this]

theorem fT_none (b : B) (frm d : Dest B) (w : List (Todo B)) (h : ∀ x ∈ w, Todo.for' b frm x = false) :
    fT W a b frm d w = [] := by
  have : w.filter (fun t => Todo.for' b frm t && decide (t.dest = d) && want W a t.pkt) = [] :=
    List.filter_eq_nil_iff.2 (fun x hx => by simp [h x hx])
  simp [fT, this]

/-- The first frame of a loop is the first in its queue, and in no other. -/
theorem fI_first (b : B) (frm : Dest B) (l1 l2 : List (Item B)) (i : Item B)
    (h : ∀ x ∈ l1, Item.for' i.here i.frm x = false) :
    fI W a b frm (l1 ++ i :: l2) = fI W a b frm [i] ++ fI W a b frm (l1 ++ l2) := by
  rw [show l1 ++ i :: l2 = l1 ++ ([i] ++ l2) by simp, fI_append, fI_append, fI_append]
  by_cases e : i.here = b ∧ i.frm = frm
  · obtain ⟨rfl, rfl⟩ := e
    rw [fI_none _ _ l1 h]; simp
  · have : fI W a b frm [i] = [] := fI_none _ _ _ (by
      intro x hx; simp only [List.mem_singleton] at hx; subst hx
      cases hf : Item.for' b frm x with
      | false => rfl
      | true => exact absurd (item_for hf) e)
    rw [this]; simp

theorem fT_first (b : B) (frm d : Dest B) (l1 l2 : List (Todo B)) (t : Todo B)
    (h : ∀ x ∈ l1, Todo.for' t.here t.frm x = false) :
    fT W a b frm d (l1 ++ t :: l2) = fT W a b frm d [t] ++ fT W a b frm d (l1 ++ l2) := by
  rw [show l1 ++ t :: l2 = l1 ++ ([t] ++ l2) by simp, fT_append, fT_append, fT_append]
  by_cases e : t.here = b ∧ t.frm = frm
  · obtain ⟨rfl, rfl⟩ := e
    rw [fT_none _ _ _ l1 h]; simp
  · have : fT W a b frm d [t] = [] := fT_none _ _ _ _ (by
      intro x hx; simp only [List.mem_singleton] at hx; subst hx
      cases hf : Todo.for' b frm x with
      | false => rfl
      | true => exact absurd (todo_for hf) e)
    rw [this]; simp

theorem fI_filter (b b' : B) (frm frm' : Dest B) (w : List (Item B)) (h : ¬ (b = b' ∧ frm = frm')) :
    fI W a b frm (w.filter (fun i => !Item.for' b' frm' i)) = fI W a b frm w := by
  unfold fI
  rw [List.filter_filter]
  congr 1
  apply List.filter_congr
  intro i _
  cases hf : Item.for' b frm i with
  | false => simp
  | true =>
    obtain ⟨h1, h2⟩ := item_for hf
    have : Item.for' b' frm' i = false := by
      cases hg : Item.for' b' frm' i with
      | false => rfl
      | true => obtain ⟨h3, h4⟩ := item_for hg; exact absurd ⟨h1.symm.trans h3, h2.symm.trans h4⟩ h
    simp [this]

theorem fI_single (b : B) (frm : Dest B) (i : Item B) :
    fI W a b frm [i] = if i.here = b ∧ i.frm = frm ∧ want W a i.pkt = true then [key i.pkt] else [] := by
  unfold fI
  simp only [List.filter_cons, List.filter_nil, Item.for', Bool.and_eq_true, decide_eq_true_eq]
  by_cases h : i.here = b ∧ i.frm = frm ∧ want W a i.pkt = true
  · rw [if_pos h, if_pos ⟨⟨h.1, h.2.1⟩, h.2.2⟩]; rfl
  · rw [if_neg h, if_neg (fun e => h ⟨e.1.1, e.1.2, e.2⟩)]; rfl

theorem fT_single (b : B) (frm d : Dest B) (t : Todo B) :
    fT W a b frm d [t] = if t.here = b ∧ t.frm = frm ∧ t.dest = d ∧ want W a t.pkt = true then [key t.pkt] else [] := by
  unfold fT
  simp only [List.filter_cons, List.filter_nil, Todo.for', Bool.and_eq_true, decide_eq_true_eq]
  by_cases h : t.here = b ∧ t.frm = frm ∧ t.dest = d ∧ want W a t.pkt = true
  · rw [if_pos h, if_pos ⟨⟨⟨h.1, h.2.1⟩, h.2.2.1⟩, h.2.2.2⟩]; rfl
  · rw [if_neg h, if_neg (fun e => h ⟨e.1.1.1, e.1.1.2, e.1.2, e.2⟩)]; rfl

/-- Of the sends for one frame, exactly one goes to each destination. -/
theorem fT_dests (b : B) (frm d : Dest B) (p : Pkt) (ds : List (Dest B)) (hn : ds.Nodup) :
    fT W a b frm d (ds.map (fun x => (⟨b, frm, p, x⟩ : Todo B))) =
      if d ∈ ds ∧ want W a p = true then [key p] else [] := by
  induction ds with
  | nil => simp [fT]
  | cons x ds ih =>
    obtain ⟨h1, h2⟩ := List.nodup_cons.1 hn
    rw [List.map_cons, show (⟨b, frm, p, x⟩ : Todo B) :: ds.map (fun x => (⟨b, frm, p, x⟩ : Todo B)) =
      [⟨b, frm, p, x⟩] ++ ds.map (fun x => (⟨b, frm, p, x⟩ : Todo B)) from rfl, fT_append, ih h2, fT_single]
    by_cases hw : want W a p = true
    · by_cases hx : x = d
      · subst hx; simp [hw, h1]
      · simp [hw, hx, Ne.symm hx]
    · simp [hw]

theorem fT_dests_other (b b' : B) (frm frm' d : Dest B) (p : Pkt) (ds : List (Dest B)) (h : ¬ (b = b' ∧ frm = frm')) :
    fT W a b frm d (ds.map (fun x => (⟨b', frm', p, x⟩ : Todo B))) = [] := by
  apply fT_none
  intro x hx
  obtain ⟨y, _, rfl⟩ := List.mem_map.1 hx
  cases hf : Todo.for' b frm (⟨b', frm', p, y⟩ : Todo B) with
  | false => rfl
  | true => obtain ⟨h1, h2⟩ := todo_for hf; exact absurd ⟨h1.symm, h2.symm⟩ h

end

/-- What a loop holds of what is to go to `d`. -/
def stage (W : Bytes → Bool) (a : Bytes) (b : B) (frm d : Dest B) (n : Net B H σ) : List (Nat × Bytes) :=
  fT W a b frm d n.pend ++ fI W a b frm n.wire

/-- Everything between `a` and `u`, nearest to `u` first. -/
def line (W : Bytes → Bool) (a u : Bytes) (h b0 : B) (n : Net B H σ) : List (Nat × Bytes) :=
  got W a u n.inbox ++
    if b0 = h then stage W a h (.user a) (.user u) n
    else stage W a h (.broker b0) (.user u) n ++ stage W a b0 (.user a) (.broker h) n

/-- Messages of `a` that count come from `a` at `b0`, or from `b0`; frames that end a receive loop come neither from `a`
nor from brokers. -/
structure Inline (cfg : Cfg B σ) (W : Bytes → Bool) (h : B) (b0 : B) (a : Bytes) (n : Net B H σ) : Prop where
  hop : HopInv n
  wireK : ∀ i ∈ n.wire, want W a i.pkt = true → ∀ a', i.frm = .user a' → i.here = b0 ∧ a' = a
  pendK : ∀ t ∈ n.pend, want W a t.pkt = true → ∀ a', t.frm = .user a' → t.here = b0 ∧ a' = a
  wireH : ∀ i ∈ n.wire, want W a i.pkt = true → ∀ b', i.frm = .broker b' → b' = b0 ∧ (i.here = h → b0 ≠ h)
  pendH : ∀ t ∈ n.pend, want W a t.pkt = true → ∀ b', t.frm = .broker b' → b' = b0 ∧ (t.here = h → b0 ≠ h)
  wireB : ∀ i ∈ n.wire, ∀ b', i.frm = .broker b' → Passes cfg H i.frm i.pkt.raw
  wireA : ∀ i ∈ n.wire, i.here = b0 → i.frm = .user a → Passes cfg H i.frm i.pkt.raw
  pendB : ∀ t ∈ n.pend, ∀ b', Passes cfg H (.broker b') t.pkt.raw

theorem inline_sub {cfg : Cfg B σ} {W : Bytes → Bool} {h b0 : B} {a : Bytes} {n n' : Net B H σ}
    (hn : Inline cfg W h b0 a n) (hw : ∀ i ∈ n'.wire, i ∈ n.wire) (hp : ∀ t ∈ n'.pend, t ∈ n.pend)
    (hi : n'.inbox = n.inbox) : Inline cfg W h b0 a n' :=
  ⟨hopInv_sub hn.hop hw hp hi, fun i h => hn.wireK i (hw i h), fun t h => hn.pendK t (hp t h), fun i h => hn.wireH i (hw i h),
    fun t h => hn.pendH t (hp t h), fun i h => hn.wireB i (hw i h), fun i h => hn.wireA i (hw i h),
    fun t h => hn.pendB t (hp t h)⟩

/-- What may happen: `a` publishes at `b0` only, and nothing that ends the loop; brokers originate nothing that counts
or ends a loop; no send to `u` or to `h` fails. -/
def Orderly (cfg : Cfg B σ) (W : Bytes → Bool) (u : Bytes) (h b0 : B) (a : Bytes) (n : Net B H σ) : Label B H → Prop
  | .publish b u' _ raw' => u' = a → b = b0 ∧ Passes cfg H (.user a) raw'
  | .originate _ b' _ raw' => W raw' = false ∧ Passes cfg H (.broker b') raw'
  | .take _ _ => True
  | .send b frm ok => ok = true ∨
      ∀ t, n.pend.find? (Todo.for' b frm) = some t → t.dest ≠ .user u ∧ t.dest ≠ .broker h
  | .setTable _ _ => False

/-- What `a` publishes with this step. -/
def publishedBy (W : Bytes → Bool) (a : Bytes) : Label B H → List (Nat × Bytes)
  | .publish _ u' id raw => if u' = a ∧ W raw = true then [(id, raw)] else []
  | _ => []

/-- What a loop does with its next frame. -/
theorem take_cases' (cfg : Cfg B σ) (n : Net B H σ) (b : B) (frm : Dest B) :
    n.step cfg (.take b frm) = n ∨
    ∃ i l1 l2, n.wire = l1 ++ i :: l2 ∧ i.here = b ∧ i.frm = frm ∧ (∀ x ∈ l1, Item.for' b frm x = false) ∧
      (∀ x ∈ n.pend, Todo.for' b frm x = false) ∧
      ∃ hook', n.step cfg (.take b frm) =
        { n with hook := hook',
                 wire := if (route cfg (n.tab b) (n.hook b frm) frm i.pkt.raw).2.2 then l1 ++ l2
                         else n.wire.filter (fun i => !Item.for' b frm i),
                 pend := n.pend ++ (route cfg (n.tab b) (n.hook b frm) frm i.pkt.raw).2.1.map
                   (fun d => ⟨b, frm, i.pkt, d⟩) } := by
  simp only [step]
  split
  · exact Or.inl rfl
  · rename_i hany
    cases hf : n.wire.find? (Item.for' b frm) with
    | none => exact Or.inl rfl
    | some i =>
      right
      obtain ⟨l1, l2, e, hpi, hl1, hera⟩ := find?_split hf
      obtain ⟨h1, h2⟩ := item_for hpi
      refine ⟨i, l1, l2, e, h1, h2, hl1, ?_, ?_⟩
      · intro x hx
        cases hfor : Todo.for' b frm x with
        | false => rfl
        | true => exact absurd (List.any_eq_true.2 ⟨x, hx, hfor⟩) hany
      · simp only [hera]
        exact ⟨_, rfl⟩

theorem send_cases'' (cfg : Cfg B σ) (n : Net B H σ) (b : B) (frm : Dest B) (ok : Bool) :
    n.step cfg (.send b frm ok) = n ∨
    ∃ t l1 l2, n.pend.find? (Todo.for' b frm) = some t ∧ n.pend = l1 ++ t :: l2 ∧ t.here = b ∧ t.frm = frm ∧
      (∀ x ∈ l1, Todo.for' b frm x = false) ∧
      (((lookup (n.tab b) t.dest = none ∨ ok = false) ∧
          n.step cfg (.send b frm ok) = { n with pend := l1 ++ l2 }) ∨
       ((lookup (n.tab b) t.dest).isSome ∧ ∃ u, t.dest = .user u ∧
          n.step cfg (.send b frm ok) =
            { n with pend := l1 ++ l2, inbox := n.inbox ++ [(u, t.pkt)] }) ∨
       ((lookup (n.tab b) t.dest).isSome ∧ ∃ b', t.dest = .broker b' ∧
          n.step cfg (.send b frm ok) =
            { n with pend := l1 ++ l2,
                     wire := n.wire ++ [⟨b', .broker b, { t.pkt with hops := t.pkt.hops + 1 }⟩] })) := by
  simp only [step]
  cases hf : n.pend.find? (Todo.for' b frm) with
  | none => exact Or.inl rfl
  | some t =>
    right
    obtain ⟨l1, l2, e, hpt, hl1, hera⟩ := find?_split hf
    obtain ⟨h1, h2⟩ := todo_for hpt
    refine ⟨t, l1, l2, rfl, e, h1, h2, hl1, ?_⟩
    simp only [hera]
    cases ok with
    | false => left; exact ⟨Or.inr rfl, by simp⟩
    | true =>
      cases hl : lookup (n.tab b) t.dest with
      | none => left; exact ⟨Or.inl rfl, rfl⟩
      | some c =>
        right
        cases hd : t.dest with
        | user u => left; exact ⟨rfl, u, rfl, rfl⟩
        | broker b' => right; exact ⟨rfl, b', rfl, rfl⟩

theorem inline_step (cfg : Cfg B σ) (hT : Transparent cfg) {W : Bytes → Bool} {u : Bytes} {h b0 : B} {a : Bytes}
    {n : Net B H σ} (hn : Inline cfg W h b0 a n) (hself : (n.tab h).getBrokerConnection h = none) (l : Label B H)
    (hl : Orderly cfg W u h b0 a n l) : Inline cfg W h b0 a (n.step cfg l) := by
  have hhop := hopInv_step cfg n hn.hop l
  cases l with
  | setTable => exact hl.elim
  | publish b u' id raw' =>
    refine ⟨hhop, ?_, hn.pendK, ?_, hn.pendH, ?_, ?_, hn.pendB⟩
    · intro i hi hk a' hf
      simp only [step, List.mem_append, List.mem_singleton] at hi
      rcases hi with hi | rfl
      · exact hn.wireK i hi hk a' hf
      · simp only [want, Bool.and_eq_true, decide_eq_true_eq] at hk
        have hu : u' = a' := by cases hf; rfl
        exact ⟨(hl hk.1).1, hu ▸ hk.1⟩
    · intro i hi hk b' hf
      simp only [step, List.mem_append, List.mem_singleton] at hi
      rcases hi with hi | rfl
      · exact hn.wireH i hi hk b' hf
      · cases hf
    · intro i hi b' hf
      simp only [step, List.mem_append, List.mem_singleton] at hi
      rcases hi with hi | rfl
      · exact hn.wireB i hi b' hf
      · cases hf
    · intro i hi hh hf
      simp only [step, List.mem_append, List.mem_singleton] at hi
      rcases hi with hi | rfl
      · exact hn.wireA i hi hh hf
      · have hu : u' = a := by cases hf; rfl
        subst hu; exact (hl rfl).2
  | originate b b' id raw' =>
    obtain ⟨h1, h2⟩ := hl
    have hno : want W a (⟨id, [], raw', 1⟩ : Pkt) ≠ true := by simp [want, h1]
    refine ⟨hhop, ?_, hn.pendK, ?_, hn.pendH, ?_, ?_, hn.pendB⟩
    · intro i hi hk
      simp only [step, List.mem_append, List.mem_singleton] at hi
      rcases hi with hi | rfl
      · exact hn.wireK i hi hk
      · exact absurd hk hno
    · intro i hi hk
      simp only [step, List.mem_append, List.mem_singleton] at hi
      rcases hi with hi | rfl
      · exact hn.wireH i hi hk
      · exact absurd hk hno
    · intro i hi b'' hf
      simp only [step, List.mem_append, List.mem_singleton] at hi
      rcases hi with hi | rfl
      · exact hn.wireB i hi b'' hf
      · exact h2
    · intro i hi hh hf
      simp only [step, List.mem_append, List.mem_singleton] at hi
      rcases hi with hi | rfl
      · exact hn.wireA i hi hh hf
      · cases hf
  | take b frm =>
    rcases take_cases cfg n b frm with e | ⟨i, l1, l2, e, hb, hf, hook', e'⟩
    · rw [e]; exact hn
    · rw [e'] at hhop ⊢
      have hi : i ∈ n.wire := by rw [e]; simp
      have hw : ∀ j ∈ (if (route cfg (n.tab b) (n.hook b frm) frm i.pkt.raw).2.2 then l1 ++ l2
          else n.wire.filter (fun i => !Item.for' b frm i)), j ∈ n.wire := by
        intro j hj
        split at hj
        · exact mem_split e hj
        · exact (List.mem_filter.1 hj).1
      refine ⟨hhop, fun j hj => hn.wireK j (hw j hj), ?_, fun j hj => hn.wireH j (hw j hj), ?_,
        fun j hj => hn.wireB j (hw j hj), fun j hj => hn.wireA j (hw j hj), ?_⟩
      · intro t ht hk a' hfr
        simp only [List.mem_append, List.mem_map] at ht
        rcases ht with ht | ⟨d, _, rfl⟩
        · exact hn.pendK t ht hk a' hfr
        · have := hn.wireK i hi hk a' (by rw [hf]; exact hfr)
          rw [hb] at this; exact this
      · intro t ht hk b' hfr
        simp only [List.mem_append, List.mem_map] at ht
        rcases ht with ht | ⟨d, _, rfl⟩
        · exact hn.pendH t ht hk b' hfr
        · have := hn.wireH i hi hk b' (by rw [hf]; exact hfr)
          rw [hb] at this; exact this
      · intro t ht b'
        simp only [List.mem_append, List.mem_map] at ht
        rcases ht with ht | ⟨d, hd, rfl⟩
        · exact hn.pendB t ht b'
        · exact route_passes cfg hT _ _ _ _ _ hd b'
  | send b frm ok =>
    rcases send_cases' cfg n b frm ok with e | ⟨t, l1, l2, _, e, hb, hf, hc⟩
    · rw [e]; exact hn
    · have ht : t ∈ n.pend := by rw [e]; simp
      have sub : ∀ n' : Net B H σ, HopInv n' → n'.wire = n.wire → n'.pend = l1 ++ l2 → Inline cfg W h b0 a n' := by
        intro n' h0 h1 h2
        refine ⟨h0, by rw [h1]; exact hn.wireK, by rw [h2]; exact fun x hx => hn.pendK x (mem_split e hx),
          by rw [h1]; exact hn.wireH, by rw [h2]; exact fun x hx => hn.pendH x (mem_split e hx), by rw [h1]; exact hn.wireB,
          by rw [h1]; exact hn.wireA, by rw [h2]; exact fun x hx => hn.pendB x (mem_split e hx)⟩
      rcases hc with ⟨_, e'⟩ | ⟨_, u', _, e'⟩ | ⟨hsome, b', hd, e'⟩
      · rw [e'] at hhop ⊢; exact sub _ hhop rfl rfl
      · rw [e'] at hhop ⊢; exact sub _ hhop rfl rfl
      · rw [e'] at hhop ⊢
        refine ⟨hhop, ?_, fun x hx => hn.pendK x (mem_split e hx), ?_, fun x hx => hn.pendH x (mem_split e hx), ?_, ?_,
          fun x hx => hn.pendB x (mem_split e hx)⟩
        · intro i hi hk
          simp only [List.mem_append, List.mem_singleton] at hi
          rcases hi with hi | rfl
          · exact hn.wireK i hi hk
          · exact fun a' e => (nomatch e)
        · intro i hi hk b'' hf'
          simp only [List.mem_append, List.mem_singleton] at hi
          rcases hi with hi | rfl
          · exact hn.wireH i hi hk b'' hf'
          · have hb0 : b = b0 := by
              cases hfr : t.frm with
              | user a' => rw [← hb]; exact (hn.pendK t ht hk a' hfr).1
              | broker b3 => obtain ⟨_, h3⟩ := hn.hop.last t ht b3 hfr; rw [hd] at h3; cases h3
            have hbb : b'' = b := by cases hf'; rfl
            refine ⟨hbb.trans hb0, fun e1 e2 => ?_⟩
            have e3 : b' = h := e1
            rw [hd, e3, hb0, e2] at hsome
            rw [show lookup (n.tab h) (.broker h) = none from hself] at hsome; cases hsome
        · intro i hi b'' hf'
          simp only [List.mem_append, List.mem_singleton] at hi
          rcases hi with hi | rfl
          · exact hn.wireB i hi b'' hf'
          · exact hn.pendB t ht b
        · intro i hi hh hf'
          simp only [List.mem_append, List.mem_singleton] at hi
          rcases hi with hi | rfl
          · exact hn.wireA i hi hh hf'
          · cases hf'

/-- Handling a frame keeps every stage. -/
theorem stage_take (cfg : Cfg B σ) (hT : Transparent cfg) {W : Bytes → Bool} {a : Bytes} (n : Net B H σ) (b : B)
    (frm d : Dest B) (hgood : ∀ raw, W raw = true → Good cfg raw)
    (hd : ∀ raw, W raw = true → d ∈ dests cfg (n.tab b) frm raw)
    (hpass : ∀ i ∈ n.wire, i.here = b → i.frm = frm → Passes cfg H i.frm i.pkt.raw) (b' : B) (frm' : Dest B) :
    stage W a b frm d (n.step cfg (.take b' frm')) = stage W a b frm d n := by
  rcases take_cases' cfg n b' frm' with e | ⟨i, l1, l2, e, hb, hf, hl1, hidle, hook', e'⟩
  · rw [e]
  · rw [e']
    have hfirst : fI W a b frm n.wire = fI W a b frm [i] ++ fI W a b frm (l1 ++ l2) := by
      rw [e]; exact fI_first b frm l1 l2 i (by rw [hb, hf]; exact hl1)
    unfold stage
    simp only [fT_append]
    by_cases hsame : b = b' ∧ frm = frm'
    · obtain ⟨rfl, rfl⟩ := hsame
      have hp := hpass i (by rw [e]; simp) hb hf (n.tab b) (n.hook b frm)
      rw [hf] at hp
      rw [hp, if_pos rfl, hfirst, fT_none b frm d n.pend hidle, fI_single]
      by_cases hw : want W a i.pkt = true
      · have hW : W i.pkt.raw = true := by
          simp only [want, Bool.and_eq_true] at hw; exact hw.2
        rw [route_good cfg hT _ _ _ _ (hgood _ hW), fT_dests _ _ _ _ _ (nodup_dests _ _ _ _),
          if_pos ⟨hd _ hW, hw⟩, if_pos ⟨hb, hf, hw⟩]
        simp
      · rw [if_neg (fun e => hw e.2.2)]
        have : ∀ ds : List (Dest B), fT W a b frm d (ds.map (fun x => (⟨b, frm, i.pkt, x⟩ : Todo B))) = [] := by
          intro ds
          induction ds with
          | nil => rfl
          | cons x ds ih =>
            rw [List.map_cons, show (⟨b, frm, i.pkt, x⟩ : Todo B) :: ds.map (fun x => (⟨b, frm, i.pkt, x⟩ : Todo B)) =
              [⟨b, frm, i.pkt, x⟩] ++ ds.map (fun x => (⟨b, frm, i.pkt, x⟩ : Todo B)) from rfl, fT_append, ih, fT_single,
              if_neg (fun e => hw e.2.2.2)]
            rfl
        rw [this]; simp
    · rw [fT_dests_other b b' frm frm' d _ _ hsame]
      have hi0 : fI W a b frm [i] = [] := by
        rw [fI_single, if_neg (fun e => hsame ⟨e.1.symm.trans hb, e.2.1.symm.trans hf⟩)]
      split
      · rw [hfirst, hi0]; simp
      · rw [fI_filter b b' frm frm' n.wire hsame]; simp

/-- Every step keeps the line, except that what is published joins it at the end. -/
theorem line_step (cfg : Cfg B σ) (hT : Transparent cfg) {W : Bytes → Bool} {u : Bytes} {h b0 : B} {a : Bytes}
    (hgood : ∀ raw, W raw = true → Good cfg raw) {n : Net B H σ} (hn : Inline cfg W h b0 a n)
    (hhere : ((n.tab h).getUserConnection u).isSome) (honly : ∀ x, x ≠ h → (n.tab x).getUserConnection u = none)
    (hlink : b0 ≠ h → ((n.tab b0).getBrokerConnection h).isSome)
    (hr : ∀ raw, W raw = true → Reaches cfg n.tab u h b0 raw)
    (l : Label B H) (hl : Orderly cfg W u h b0 a n l) :
    line W a u h b0 (n.step cfg l) = line W a u h b0 n ++ publishedBy W a l := by
  cases l with
  | setTable => exact hl.elim
  | publish b u' id raw' =>
    have hadd : ∀ (x : B) (frm d : Dest B), stage W a x frm d (n.step cfg (.publish b u' id raw')) =
        stage W a x frm d n ++ if b = x ∧ Dest.user u' = frm ∧ u' = a ∧ W raw' = true then [(id, raw')] else [] := by
      intro x frm d
      unfold stage
      simp only [step, fI_append, fI_single, want, Bool.and_eq_true, decide_eq_true_eq, key, List.append_assoc]
    unfold line
    simp only [hadd]
    show got W a u n.inbox ++ _ = _
    simp only [publishedBy]
    by_cases hp : u' = a ∧ W raw' = true
    · obtain ⟨rfl, hW⟩ := hp
      have hb := (hl rfl).1
      subst hb
      by_cases e : b = h
      · simp [e, hW]
      · simp [e, hW]
    · simp [hp]
  | originate b b' id raw' =>
    have hadd : ∀ (x : B) (frm d : Dest B), stage W a x frm d (n.step cfg (.originate b b' id raw')) = stage W a x frm d n := by
      intro x frm d
      unfold stage
      simp only [step, fI_append, fI_single, want, hl.1, Bool.and_false, Bool.false_eq_true, and_false, if_false,
        List.append_nil]
    unfold line
    simp only [hadd]
    simp [publishedBy, step]
  | take b frm =>
    have hin : (n.step cfg (.take b frm)).inbox = n.inbox := by
      rcases take_cases cfg n b frm with e | ⟨i, l1, l2, _, _, _, hook', e'⟩
      · rw [e]
      · rw [e']
    unfold line
    rw [hin]
    simp only [publishedBy, List.append_nil]
    congr 1
    by_cases e : b0 = h
    · rw [if_pos e, if_pos e]
      refine stage_take cfg hT n h (.user a) (.user u) hgood (fun raw hW => ?_) (fun i hi h1 h2 => ?_) b frm
      · have := (hr raw hW).first a
        rw [if_pos e, e] at this; exact this
      · exact hn.wireA i hi (h1.trans e.symm) h2
    · rw [if_neg e, if_neg e]
      congr 1
      · exact stage_take cfg hT n h (.broker b0) (.user u) hgood (fun raw hW => (hr raw hW).second b0)
          (fun i hi h1 h2 => hn.wireB i hi b0 h2) b frm
      · refine stage_take cfg hT n b0 (.user a) (.broker h) hgood (fun raw hW => ?_) (fun i hi h1 h2 => ?_) b frm
        · have := (hr raw hW).first a
          rw [if_neg e] at this; exact this
        · exact hn.wireA i hi h1 h2
  | send b frm ok =>
    rcases send_cases'' cfg n b frm ok with e | ⟨t, l1, l2, hfind, e, hb, hf, hl1, hc⟩
    · rw [e]; simp [publishedBy]
    · have ht : t ∈ n.pend := by rw [e]; simp
      have hfirst : ∀ (x : B) (fr d : Dest B), fT W a x fr d n.pend =
          fT W a x fr d [t] ++ fT W a x fr d (l1 ++ l2) := by
        intro x fr d
        rw [e]; exact fT_first x fr d l1 l2 t (by rw [hb, hf]; exact hl1)
      simp only [publishedBy, List.append_nil]
      rcases hc with ⟨hnone, e'⟩ | ⟨hsome, u', hd, e'⟩ | ⟨hsome, b', hd, e'⟩
      · rw [e']
        have hbad : lookup (n.tab b) t.dest = none ∨ (t.dest ≠ .user u ∧ t.dest ≠ .broker h) := by
          rcases hnone with h1 | h1
          · exact Or.inl h1
          · rcases hl with h2 | h2
            · rw [h1] at h2; cases h2
            · exact Or.inr (h2 t hfind)
        have hu : ∀ fr, fT W a h fr (.user u) [t] = [] := by
          intro fr
          rw [fT_single]
          refine if_neg (fun e1 => ?_)
          rcases hbad with h1 | h1
          · rw [e1.2.2.1, ← hb, e1.1] at h1
            rw [show lookup (n.tab h) (.user u) = (n.tab h).getUserConnection u from rfl] at h1
            rw [h1] at hhere; cases hhere
          · exact h1.1 e1.2.2.1
        have hbr : b0 ≠ h → fT W a b0 (.user a) (.broker h) [t] = [] := by
          intro hne
          rw [fT_single]
          refine if_neg (fun e1 => ?_)
          rcases hbad with h1 | h1
          · rw [e1.2.2.1, ← hb, e1.1] at h1
            rw [show lookup (n.tab b0) (.broker h) = (n.tab b0).getBrokerConnection h from rfl] at h1
            have := hlink hne
            rw [h1] at this; cases this
          · exact h1.2 e1.2.2.1
        unfold line stage
        simp only [hfirst, hu]
        by_cases e1 : b0 = h
        · simp [e1]
        · simp [e1, hbr e1]
      · rw [e']
        have hbr : ∀ fr, fT W a b0 fr (.broker h) [t] = [] := by
          intro fr
          rw [fT_single]
          exact if_neg (fun e1 => by rw [hd] at e1; exact (nomatch e1.2.2.1))
        have hhh : u' = u → t.here = h := by
          intro e1
          refine Classical.byContradiction fun hne => ?_
          have := honly t.here hne
          rw [hb, ← e1] at this
          rw [hd] at hsome
          rw [show lookup (n.tab b) (.user u') = none from this] at hsome; cases hsome
        have hgot : got W a u (n.inbox ++ [(u', t.pkt)]) = got W a u n.inbox ++
            if u' = u ∧ want W a t.pkt = true then [key t.pkt] else [] := by
          unfold got
          simp only [List.filter_append, List.map_append, List.filter_cons, List.filter_nil, Bool.and_eq_true,
            decide_eq_true_eq]
          congr 1
          split <;> rfl
        unfold line stage
        simp only [hfirst, hbr, hgot, fT_single, hd]
        by_cases hx : u' = u ∧ want W a t.pkt = true
        · have hh := hhh hx.1
          by_cases e1 : b0 = h
          · have hfr : t.frm = .user a := by
              cases hfr : t.frm with
              | user a' => rw [(hn.pendK t ht hx.2 a' hfr).2]
              | broker b' => exact absurd e1 ((hn.pendH t ht hx.2 b' hfr).2 hh)
            simp [e1, hx, hh, hfr]
          · have hfr : t.frm = .broker b0 := by
              cases hfr : t.frm with
              | user a' => exact absurd ((hn.pendK t ht hx.2 a' hfr).1.symm.trans hh) e1
              | broker b' => rw [(hn.pendH t ht hx.2 b' hfr).1]
            simp [e1, hx, hh, hfr]
        · have h0 : ∀ fr, ¬ (t.here = h ∧ t.frm = fr ∧ Dest.user u' = (Dest.user u : Dest B) ∧ want W a t.pkt = true) := by
            intro fr e1
            exact hx ⟨by have := e1.2.2.1; cases this; rfl, e1.2.2.2⟩
          simp only [if_neg hx, if_neg (h0 _)]
          simp
      · rw [e']
        have hu : ∀ fr, fT W a h fr (.user u) [t] = [] := by
          intro fr
          rw [fT_single]
          exact if_neg (fun e1 => by rw [hd] at e1; exact (nomatch e1.2.2.1))
        have hwant : want W a { t.pkt with hops := t.pkt.hops + 1 } = want W a t.pkt := rfl
        have hkey : key { t.pkt with hops := t.pkt.hops + 1 } = key t.pkt := rfl
        have huser : ∀ x c, fI W a x (.user c) [(⟨b', .broker b, { t.pkt with hops := t.pkt.hops + 1 }⟩ : Item B)] = [] := by
          intro x c
          rw [fI_single]
          exact if_neg (fun e1 => nomatch e1.2.1)
        unfold line stage
        simp only [hfirst, fI_append, hu, huser]
        by_cases e1 : b0 = h
        · simp [e1]
        · have heq : fI W a h (.broker b0) [(⟨b', .broker b, { t.pkt with hops := t.pkt.hops + 1 }⟩ : Item B)] =
              fT W a b0 (.user a) (.broker h) [t] := by
            rw [fI_single, fT_single]
            simp only [hwant, hkey]
            by_cases hx : b' = h ∧ b = b0 ∧ want W a t.pkt = true
            · have hfr : t.frm = .user a := by
                cases hfr : t.frm with
                | user a' => rw [(hn.pendK t ht hx.2.2 a' hfr).2]
                | broker b3 => obtain ⟨_, h3⟩ := hn.hop.last t ht b3 hfr; rw [hd] at h3; cases h3
              rw [if_pos ⟨hx.1, by rw [hx.2.1], hx.2.2⟩, if_pos ⟨hb.trans hx.2.1, hfr, by rw [hd, hx.1], hx.2.2⟩]
            · rw [if_neg (fun e2 => hx ⟨e2.1, by have := e2.2.1; cases this; rfl, e2.2.2⟩),
                if_neg (fun e2 => hx ⟨by have := e2.2.2.1; rw [hd] at this; cases this; rfl, hb.symm.trans e2.1, e2.2.2.2⟩)]
          rw [heq]
          simp [e1]

end Verif.Net

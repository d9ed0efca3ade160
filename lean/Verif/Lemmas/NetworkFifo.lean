import Verif.Lemmas.NetworkStatic

/-!
# Order of messages between two users while routing tables do not change
-/

set_option linter.unusedSectionVars false

namespace Verif.Net
open Verif Verif.Conns Verif.Broker

variable {B H σ : Type} [DecidableEq B] [DecidableEq H] [LT B] [DecidableLT B]

theorem flatMap_replicate_sum {A C : Type} (l : List A) (f : A → Nat) (c : C) :
    l.flatMap (fun a => List.replicate (f a) c) = List.replicate (l.map f).sum c := by
  induction l with
  | nil => rfl
  | cons a l ih => rw [List.flatMap_cons, ih, List.map_cons, List.sum_cons, List.replicate_append_replicate]

theorem flatMap_eq_nil' {A C : Type} (l : List A) (f : A → List C) (h : ∀ a ∈ l, f a = []) :
    l.flatMap f = [] := by
  induction l with
  | nil => rfl
  | cons a l ih =>
    rw [List.flatMap_cons, h a (by simp), ih (fun x hx => h x (by simp [hx]))]; rfl

section
variable (cfg : Cfg B σ) (tab : B → Table B H) (A R : Bytes) (b0 bR : B)

/-- Deliveries to `R` that a frame of `A` waiting at `A`'s broker will cause. -/
def g1 (i : Item B) : List Nat :=
  if i.here = b0 ∧ i.frm = .user A then
    List.replicate (wWire cfg tab R b0 (.user A) i.pkt.raw) i.pkt.id else []

def p1 (t : Todo B) : List Nat :=
  if t.here = b0 ∧ t.frm = .user A then
    List.replicate (wPend cfg tab R b0 t.pkt.raw t.dest) t.pkt.id else []

/-- Deliveries to `R` that a frame of `A` waiting at `R`'s broker will cause. -/
def g2 (i : Item B) : List Nat :=
  if i.here = bR ∧ i.frm = .broker b0 ∧ i.pkt.src = A then
    List.replicate (wWire cfg tab R bR (.broker b0) i.pkt.raw) i.pkt.id else []

def p2 (t : Todo B) : List Nat :=
  if t.here = bR ∧ t.frm = .broker b0 ∧ t.pkt.src = A then
    List.replicate (wPend cfg tab R bR t.pkt.raw t.dest) t.pkt.id else []

/-- What `R` received from `A`, in order. -/
def received (n : Net B H σ) : List Nat :=
  n.inbox.flatMap (fun e => if e.1 = R ∧ e.2.src = A then [e.2.id] else [])

/-- Deliveries to `R` a label will eventually cause. -/
def expected : Label B H → List Nat
  | .publish b a id raw => if a = A then List.replicate (wWire cfg tab R b (.user A) raw) id else []
  | _ => []

/-- Where frames of `A` can be. -/
def Origin (M : B → Prop) (here : B) (frm : Dest B) (p : Pkt) : Prop :=
  M here ∧ (frm = .user A → p.src = A ∧ here = b0) ∧
  (p.src = A → frm = .user A ∨ frm = .broker b0) ∧ ¬ (here = b0 ∧ frm = .broker b0)

structure FifoInv (M : B → Prop) (n : Net B H σ) (exp : List Nat) : Prop where
  wire : ∀ i ∈ n.wire, Origin A b0 M i.here i.frm i.pkt
  pend : ∀ t ∈ n.pend, Origin A b0 M t.here t.frm t.pkt
  eq : received A R n ++ n.pend.flatMap (p2 cfg tab A R b0 bR) ++
    n.wire.flatMap (g2 cfg tab A R b0 bR) ++ n.pend.flatMap (p1 cfg tab A R b0) ++
    n.wire.flatMap (g1 cfg tab A R b0) = exp

end

theorem wLast_zero {tab : B → Table B H} {R : Bytes} {b : B}
    (h : (tab b).getUserConnection R = none) (d : Dest B) : wLast tab R b d = 0 := by
  cases d with
  | broker => rfl
  | user u =>
    simp only [wLast]
    rw [if_neg]
    rintro ⟨rfl, h'⟩
    rw [h] at h'; simp at h'

theorem sum_zero {A : Type} (l : List A) (f : A → Nat) (h : ∀ a ∈ l, f a = 0) : (l.map f).sum = 0 := by
  induction l with
  | nil => rfl
  | cons a l ih =>
    rw [List.map_cons, List.sum_cons, h a (by simp), ih (fun x hx => h x (by simp [hx]))]

theorem wB_zero {cfg : Cfg B σ} {tab : B → Table B H} {R : Bytes} {b : B}
    (h : (tab b).getUserConnection R = none) (b0 : B) (raw : Bytes) :
    wB cfg tab R b b0 raw = 0 := sum_zero _ _ (fun d _ => wLast_zero h d)

theorem fifoInv_step (cfg : Cfg B σ) (hT : Transparent cfg) (tab : B → Table B H) (A R : Bytes)
    (b0 bR : B) (M : B → Prop)
    (hM : ∀ b b', M b → ((tab b).getBrokerConnection b').isSome → M b' ∧ b' ≠ b)
    (hR : ∀ b, M b → ((tab b).getUserConnection R).isSome → b = bR)
    (n : Net B H σ) (hs : StaticInv cfg tab n) (hh : HopInv n) (exp : List Nat)
    (h : FifoInv cfg tab A R b0 bR M n exp) (l : Label B H) (hl : Static cfg l)
    (hpub : ∀ b a id raw, l = .publish b a id raw → M b ∧ (a = A → b = b0)) :
    FifoInv cfg tab A R b0 bR M (n.step cfg l) (exp ++ expected cfg tab A R l) := by
  have htab := hs.tab
  have heq := h.eq
  cases l with
  | originate => exact hl.elim
  | setTable => exact hl.elim
  | publish b a id raw =>
    obtain ⟨hMb, hab⟩ := hpub b a id raw rfl
    refine ⟨?_, h.pend, ?_⟩
    · intro i hi
      simp only [step, List.mem_append, List.mem_singleton] at hi
      rcases hi with hi | rfl
      · exact h.wire i hi
      · refine ⟨hMb, ?_, ?_, by simp⟩
        · intro e; simp only [Dest.user.injEq] at e; exact ⟨e, hab e⟩
        · intro e; exact Or.inl (by simp only at e; rw [e])
    · have e1 : g2 cfg tab A R b0 bR (⟨b, .user a, ⟨id, a, raw, 0⟩⟩ : Item B) = [] := by
        simp [g2]
      have e2 : g1 cfg tab A R b0 (⟨b, .user a, ⟨id, a, raw, 0⟩⟩ : Item B) =
          expected cfg tab A R (.publish b a id raw : Label B H) := by
        unfold g1 expected
        by_cases ha : a = A
        · have := hab ha; subst this; subst ha; simp
        · simp [ha]
      simp only [step, received, List.flatMap_append, List.flatMap_cons, List.flatMap_nil, e1, e2,
        List.append_nil]
      rw [← heq]
      simp only [received, List.append_assoc]
  | take b frm =>
    simp only [expected, List.append_nil]
    rcases take_good cfg hT n b frm hs.wire with e | ⟨hidle, i, l1, l2, e, hb, hfr, hl1, hook', e'⟩
    · rw [e]; exact h
    · have hi : i ∈ n.wire := by rw [e]; simp
      have hOi := h.wire i hi
      rw [e']
      refine ⟨?_, ?_, ?_⟩
      · intro j hj
        apply h.wire
        rw [e]
        simp only [List.mem_append, List.mem_cons] at hj ⊢
        rcases hj with hj | hj
        · exact Or.inl hj
        · exact Or.inr (Or.inr hj)
      · intro t ht
        simp only [List.mem_append, List.mem_map] at ht
        rcases ht with ht | ⟨d, _, rfl⟩
        · exact h.pend t ht
        · have := hOi; rw [hb, hfr] at this; exact this
      · rw [List.any_eq_false] at hidle
        rw [htab]
        rw [e] at heq
        simp only [received, List.flatMap_append, List.flatMap_cons, List.flatMap_map] at heq ⊢
        by_cases k1 : b = b0 ∧ frm = .user A
        · obtain ⟨rfl, rfl⟩ := k1
          have a1 : l1.flatMap (g1 cfg tab A R b) = [] := by
            apply flatMap_eq_nil'
            intro x hx
            have := hl1 x hx
            simp only [Item.for', Bool.and_eq_false_iff, decide_eq_false_iff_not] at this
            unfold g1; rw [if_neg]; rintro ⟨h1, h2⟩
            rcases this with h | h
            · exact h h1
            · exact h h2
          have a2 : n.pend.flatMap (p1 cfg tab A R b) = [] := by
            apply flatMap_eq_nil'
            intro x hx
            have := hidle x hx
            simp only [Todo.for', Bool.and_eq_true, decide_eq_true_eq] at this
            unfold p1; rw [if_neg this]
          have a3 : g2 cfg tab A R b bR i = [] := by simp [g2, hfr]
          have a4 : (dests cfg (tab b) (.user A) i.pkt.raw).flatMap
              (fun d => p2 cfg tab A R b bR (⟨b, .user A, i.pkt, d⟩ : Todo B)) = [] := by
            apply flatMap_eq_nil'; intro d _; simp [p2]
          have a5 : (dests cfg (tab b) (.user A) i.pkt.raw).flatMap
              (fun d => p1 cfg tab A R b (⟨b, .user A, i.pkt, d⟩ : Todo B)) =
              g1 cfg tab A R b i := by
            simp only [p1, g1, hb, hfr, and_self, if_true]
            rw [flatMap_replicate_sum]; rfl
          rw [a1, a2, a3] at heq
          rw [a1, a2, a4, a5]
          simpa using heq
        · by_cases k2 : b = bR ∧ frm = .broker b0
          · obtain ⟨rfl, rfl⟩ := k2
            have a1 : l1.flatMap (g2 cfg tab A R b0 b) = [] := by
              apply flatMap_eq_nil'
              intro x hx
              have := hl1 x hx
              simp only [Item.for', Bool.and_eq_false_iff, decide_eq_false_iff_not] at this
              unfold g2; rw [if_neg]; rintro ⟨h1, h2, _⟩
              rcases this with h | h
              · exact h h1
              · exact h h2
            have a2 : n.pend.flatMap (p2 cfg tab A R b0 b) = [] := by
              apply flatMap_eq_nil'
              intro x hx
              have := hidle x hx
              simp only [Todo.for', Bool.and_eq_true, decide_eq_true_eq] at this
              unfold p2; rw [if_neg]
              rintro ⟨h1, h2, _⟩; exact this ⟨h1, h2⟩
            have a3 : g1 cfg tab A R b0 i = [] := by simp [g1, hfr]
            have a4 : (dests cfg (tab b) (.broker b0) i.pkt.raw).flatMap
                (fun d => p1 cfg tab A R b0 (⟨b, .broker b0, i.pkt, d⟩ : Todo B)) = [] := by
              apply flatMap_eq_nil'; intro d _; simp [p1]
            have a5 : (dests cfg (tab b) (.broker b0) i.pkt.raw).flatMap
                (fun d => p2 cfg tab A R b0 b (⟨b, .broker b0, i.pkt, d⟩ : Todo B)) =
                g2 cfg tab A R b0 b i := by
              by_cases hsrc : i.pkt.src = A
              · simp only [p2, g2, hb, hfr, hsrc, and_self, if_true]
                rw [flatMap_replicate_sum]; rfl
              · simp only [g2, hsrc, and_false, if_false]
                apply flatMap_eq_nil'; intro d _; simp [p2, hsrc]
            rw [a1, a2, a3] at heq
            rw [a1, a2, a4, a5]
            simpa using heq
          · have a1 : g1 cfg tab A R b0 i = [] := by
              unfold g1; rw [if_neg]; rw [hb, hfr]; exact k1
            have a2 : g2 cfg tab A R b0 bR i = [] := by
              unfold g2; rw [if_neg]; rw [hb, hfr]
              rintro ⟨h1, h2, _⟩; exact k2 ⟨h1, h2⟩
            have a3 : (dests cfg (tab b) frm i.pkt.raw).flatMap
                (fun d => p1 cfg tab A R b0 (⟨b, frm, i.pkt, d⟩ : Todo B)) = [] := by
              apply flatMap_eq_nil'; intro d _; unfold p1; rw [if_neg]; exact k1
            have a4 : (dests cfg (tab b) frm i.pkt.raw).flatMap
                (fun d => p2 cfg tab A R b0 bR (⟨b, frm, i.pkt, d⟩ : Todo B)) = [] := by
              apply flatMap_eq_nil'; intro d _; unfold p2; rw [if_neg]
              rintro ⟨h1, h2, _⟩; exact k2 ⟨h1, h2⟩
            rw [a1, a2] at heq
            rw [a3, a4]
            simpa using heq
  | send b frm ok =>
    have hok : ok = true := hl
    subst hok
    simp only [expected, List.append_nil]
    rcases send_cases cfg n b frm with ⟨e, _⟩ | ⟨t, l1, l2, e, hb, hfr, hl1, hcase⟩
    · rw [e]; exact h
    · have ht : t ∈ n.pend := by rw [e]; simp
      have hOt := h.pend t ht
      have hp : ∀ x ∈ l1 ++ l2, Origin A b0 M x.here x.frm x.pkt := by
        intro x hx; apply h.pend; rw [e]
        simp only [List.mem_append, List.mem_cons] at hx ⊢
        rcases hx with hx | hx
        · exact Or.inl hx
        · exact Or.inr (Or.inr hx)
      -- order within the loop's own queue
      have q1 : b = b0 → frm = .user A → l1.flatMap (p1 cfg tab A R b0) = [] := by
        intro e1 e2
        apply flatMap_eq_nil'
        intro x hx
        have := hl1 x hx
        rw [e1, e2] at this
        simp only [Todo.for', Bool.and_eq_false_iff, decide_eq_false_iff_not] at this
        unfold p1; rw [if_neg]; rintro ⟨h1, h2⟩
        rcases this with h | h
        · exact h h1
        · exact h h2
      have q2 : b = bR → frm = .broker b0 → l1.flatMap (p2 cfg tab A R b0 bR) = [] := by
        intro e1 e2
        apply flatMap_eq_nil'
        intro x hx
        have := hl1 x hx
        rw [e1, e2] at this
        simp only [Todo.for', Bool.and_eq_false_iff, decide_eq_false_iff_not] at this
        unfold p2; rw [if_neg]; rintro ⟨h1, h2, _⟩
        rcases this with h | h
        · exact h h1
        · exact h h2
      rw [htab] at hcase
      have heq0 := heq
      rw [e] at heq
      simp only [received, List.flatMap_append, List.flatMap_cons] at heq
      rw [hb] at hOt
      obtain ⟨hMb, hO1, hO2, hO3⟩ := hOt
      rcases hcase with ⟨hn, e'⟩ | ⟨hsome, u, hd, e'⟩ | ⟨hsome, b', hd, e'⟩
      · -- no connection: nothing sent, and nothing was to be expected
        rw [e']
        have hw : ∀ raw, wPend cfg tab R b raw t.dest = 0 := by
          intro raw
          cases hdd : t.dest with
          | user u =>
            rw [hdd] at hn; simp only [lookup] at hn
            simp [wPend, wLast, hn]
          | broker b' =>
            rw [hdd] at hn; simp only [lookup] at hn
            simp [wPend, hn]
        have a1 : p1 cfg tab A R b0 t = [] := by
          unfold p1; split
          · rename_i hc; rw [← hc.1, hb, hw]; rfl
          · rfl
        have a2 : p2 cfg tab A R b0 bR t = [] := by
          unfold p2; split
          · rename_i hc; rw [← hc.1, hb, hw]; rfl
          · rfl
        refine ⟨h.wire, hp, ?_⟩
        simp only [received, List.flatMap_append]
        rw [a1, a2] at heq
        simpa using heq
      · rw [e']
        refine ⟨h.wire, hp, ?_⟩
        rw [hd] at hsome
        simp only [lookup] at hsome
        have hw : ∀ raw, wPend cfg tab R b raw t.dest = if u = R then 1 else 0 := by
          intro raw; rw [hd]; simp [wPend, wLast, hsome]
        simp only [received, List.flatMap_append, List.flatMap_cons, List.flatMap_nil,
          List.append_nil]
        by_cases k1 : b = b0 ∧ frm = .user A
        · obtain ⟨rfl, rfl⟩ := k1
          obtain ⟨hsrc, _⟩ := hO1 (by rw [hfr])
          have a1 : p1 cfg tab A R b t = if u = R then [t.pkt.id] else [] := by
            unfold p1; rw [if_pos ⟨hb, hfr⟩, hw]; split <;> rfl
          have a2 : p2 cfg tab A R b bR t = [] := by simp [p2, hfr]
          have a3 := q1 rfl rfl
          rw [a1, a2, a3] at heq
          rw [a3]
          by_cases hu : u = R
          · subst hu
            have : b = bR := hR b hMb hsome
            subst this
            have w2 : n.wire.flatMap (g2 cfg tab A u b b) = [] := by
              apply flatMap_eq_nil'
              intro x hx
              have := (h.wire x hx).2.2.2
              unfold g2; rw [if_neg]; rintro ⟨h1, h2, _⟩; exact this ⟨h1, h2⟩
            have w3 : l1.flatMap (p2 cfg tab A u b b) = [] := by
              apply flatMap_eq_nil'
              intro x hx
              have := (hp x (by simp [hx])).2.2.2
              unfold p2; rw [if_neg]; rintro ⟨h1, h2, _⟩; exact this ⟨h1, h2⟩
            have w4 : l2.flatMap (p2 cfg tab A u b b) = [] := by
              apply flatMap_eq_nil'
              intro x hx
              have := (hp x (by simp [hx])).2.2.2
              unfold p2; rw [if_neg]; rintro ⟨h1, h2, _⟩; exact this ⟨h1, h2⟩
            rw [w2, w3, w4] at heq
            rw [w2, w3, w4]
            simpa [hsrc] using heq
          · simpa [hu] using heq
        · have a1 : p1 cfg tab A R b0 t = [] := by
            unfold p1; rw [if_neg]; rw [hb, hfr]; exact k1
          by_cases k2 : u = R ∧ t.pkt.src = A
          · obtain ⟨rfl, hsrc⟩ := k2
            have hbR := hR b hMb hsome
            have hfb : frm = .broker b0 := by
              rcases hO2 hsrc with h1 | h1
              · exfalso
                apply k1
                refine ⟨(hO1 h1).2, ?_⟩
                rw [← hfr]; exact h1
              · rw [← hfr]; exact h1
            have a2 : p2 cfg tab A u b0 bR t = [t.pkt.id] := by
              unfold p2
              rw [if_pos ⟨hb.trans hbR, hfr.trans hfb, hsrc⟩, ← hbR, hw]; simp
            have a3 := q2 hbR hfb
            rw [a1, a2, a3] at heq
            rw [a3]
            simpa [hsrc] using heq
          · have a2 : p2 cfg tab A R b0 bR t = [] := by
              unfold p2
              split
              · rename_i hc
                rw [← hc.1, hb, hw, if_neg (fun hu => k2 ⟨hu, hc.2.2⟩)]; rfl
              · rfl
            rw [a1, a2] at heq
            simpa [k2] using heq
      · rw [e']
        rw [hd] at hsome
        simp only [lookup] at hsome
        obtain ⟨hMb', hne⟩ := hM b b' hMb hsome
        have hu : ∃ x, frm = .user x := by
          cases hf : frm with
          | user x => exact ⟨x, rfl⟩
          | broker bb =>
            obtain ⟨u, hu⟩ := hh.last t ht bb (hfr.trans hf)
            rw [hd] at hu; simp at hu
        obtain ⟨x, rfl⟩ := hu
        have hsrcA : t.pkt.src = A → x = A := by
          intro h1
          rcases hO2 h1 with h2 | h2
          · rw [hfr] at h2; simpa using h2
          · rw [hfr] at h2; simp at h2
        refine ⟨?_, hp, ?_⟩
        · intro i hi
          simp only [List.mem_append, List.mem_singleton] at hi
          rcases hi with hi | rfl
          · exact h.wire i hi
          · refine ⟨hMb', by simp, ?_, ?_⟩
            · intro h1
              simp only at h1
              right
              have hxA := hsrcA h1
              have := (hO1 (by rw [hfr, hxA])).2
              simp only [this]
            · rintro ⟨h1, h2⟩
              simp only [Dest.broker.injEq] at h1 h2
              exact hne (h1.trans h2.symm)
        · have a2 : p2 cfg tab A R b0 bR t = [] := by simp [p2, hfr]
          have a4 : g1 cfg tab A R b0 (⟨b', .broker b, { t.pkt with hops := t.pkt.hops + 1 }⟩ : Item B)
              = [] := by simp [g1]
          have a1 : p1 cfg tab A R b0 t = g2 cfg tab A R b0 bR
              (⟨b', .broker b, { t.pkt with hops := t.pkt.hops + 1 }⟩ : Item B) := by
            by_cases hx : x = A
            · subst hx
              obtain ⟨hsrc, hb0⟩ := hO1 hfr
              subst hb0
              unfold p1 g2
              rw [if_pos ⟨hb, hfr⟩, hd]
              simp only [wPend, hsome, if_true]
              by_cases hbb : b' = bR
              · subst hbb
                simp only [hsrc, and_self, if_true]
                rw [wWire_broker]
              · have : (tab b').getUserConnection R = none := by
                  cases hc : (tab b').getUserConnection R with
                  | none => rfl
                  | some c => exact absurd (hR b' hMb' (by rw [hc]; rfl)) hbb
                rw [wB_zero this]
                simp [hbb]
            · unfold p1 g2
              rw [if_neg, if_neg]
              · rintro ⟨_, _, h3⟩; exact hx (hsrcA h3)
              · rintro ⟨_, h2⟩; rw [hfr] at h2; simp only [Dest.user.injEq] at h2; exact hx h2
          simp only [received, List.flatMap_append, List.flatMap_cons, List.flatMap_nil,
            List.append_nil, a4]
          rw [a2, a1] at heq
          by_cases hg : g2 cfg tab A R b0 bR
              (⟨b', .broker b, { t.pkt with hops := t.pkt.hops + 1 }⟩ : Item B) = []
          · rw [hg] at heq ⊢
            simpa using heq
          · have hkey : b = b0 ∧ x = A := by
              by_cases hx : x = A
              · exact ⟨(hO1 (by rw [hfr, hx])).2, hx⟩
              · exfalso; apply hg
                unfold g2; rw [if_neg]
                rintro ⟨_, _, h3⟩; exact hx (hsrcA h3)
            have a3 := q1 hkey.1 (by rw [hkey.2])
            rw [a3] at heq ⊢
            simpa using heq

theorem fifoInv_run (cfg : Cfg B σ) (hT : Transparent cfg) (tab : B → Table B H) (A R : Bytes)
    (b0 bR : B) (M : B → Prop)
    (hM : ∀ b b', M b → ((tab b).getBrokerConnection b').isSome → M b' ∧ b' ≠ b)
    (hR : ∀ b, M b → ((tab b).getUserConnection R).isSome → b = bR)
    (ls : List (Label B H)) (n : Net B H σ) (hs : StaticInv cfg tab n) (hh : HopInv n)
    (exp : List Nat) (h : FifoInv cfg tab A R b0 bR M n exp) (hl : ∀ l ∈ ls, Static cfg l)
    (hpub : ∀ b a id raw, Label.publish b a id raw ∈ ls → M b ∧ (a = A → b = b0)) :
    FifoInv cfg tab A R b0 bR M (n.run cfg ls) (exp ++ ls.flatMap (expected cfg tab A R)) := by
  induction ls generalizing n exp with
  | nil => simpa [run] using h
  | cons l ls ih =>
    rw [run_cons, List.flatMap_cons, ← List.append_assoc]
    have hl0 := hl l (by simp)
    refine ih _ (staticInv_step cfg hT tab n hs l hl0) (hopInv_step cfg n hh l) _ ?_
      (fun l hm => hl l (by simp [hm])) (fun b a id raw hm => hpub b a id raw (by simp [hm]))
    exact fifoInv_step cfg hT tab A R b0 bR M hM hR n hs hh exp h l hl0
      (fun b a id raw e => hpub b a id raw (by simp [e]))

theorem fifoInv_start (cfg : Cfg B σ) (tab : B → Table B H) (hook : B → Dest B → σ) (A R : Bytes)
    (b0 bR : B) (M : B → Prop) : FifoInv cfg tab A R b0 bR M (start tab hook) [] :=
  ⟨by simp [start], by simp [start], by simp [start, received]⟩

end Verif.Net

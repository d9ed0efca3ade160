import Verif.Lemmas.NetworkFifo

/-!
# Order of messages between two users, whatever happens to the routing tables
-/

set_option linter.unusedSectionVars false

namespace Verif.Net
open Verif Verif.Conns Verif.Broker

variable {B H σ : Type} [DecidableEq B] [DecidableEq H] [LT B] [DecidableLT B]

theorem nodup_directDests (s : Table B H) (r : Bytes) (o : Bool) : (directDests s r o).Nodup := by
  unfold directDests
  split
  · exact List.nodup_nil
  · split
    · simp
    · split
      · exact List.nodup_nil
      · simp

theorem nodup_route (cfg : Cfg B σ) (s : Table B H) (h : σ) (frm : Dest B) (raw : Bytes) :
    (route cfg s h frm raw).2.1.Nodup := by
  unfold route userRoute brokerRoute
  dsimp only
  repeat' split
  all_goals first | exact List.nodup_nil | exact nodup_directDests _ _ _ | exact nodup_broadcastDests _ _ _

section
variable (A R : Bytes) (b0 bR : B)

/-- Where a frame of `A` has to go to next on its way to `R`. -/
def hop : Dest B := if b0 = bR then .user R else .broker bR

def w1 (i : Item B) : List Nat := if i.here = b0 ∧ i.frm = .user A then [i.pkt.id] else []
def q1 (t : Todo B) : List Nat := if t.here = b0 ∧ t.frm = .user A ∧ t.dest = hop R b0 bR then [t.pkt.id] else []
def w2 (i : Item B) : List Nat := if i.here = bR ∧ i.frm = .broker b0 ∧ i.pkt.src = A then [i.pkt.id] else []
def q2 (t : Todo B) : List Nat :=
  if t.here = bR ∧ t.frm = .broker b0 ∧ t.pkt.src = A ∧ t.dest = .user R then [t.pkt.id] else []

/-- Where frames of `A` can be. -/
def From (here : B) (frm : Dest B) (p : Pkt) : Prop :=
  (∀ u, frm = .user u → p.src = u ∧ (u = A → here = b0)) ∧ (∀ x, frm = .broker x → p.src = A → x = b0 ∧ here ≠ b0)

/-- What is received and under way on the only path there is comes from what was sent, in order. -/
structure OrderInv (n : Net B H σ) (exp : List Nat) : Prop where
  away : ∀ b, b ≠ bR → (n.tab b).getUserConnection R = none
  self : (n.tab b0).getBrokerConnection b0 = none
  wire : ∀ i ∈ n.wire, From A b0 i.here i.frm i.pkt
  pend : ∀ t ∈ n.pend, From A b0 t.here t.frm t.pkt
  sub : (received A R n ++ (n.pend.flatMap (q2 A R b0 bR) ++ n.wire.flatMap (w2 A b0 bR)) ++
    (n.pend.flatMap (q1 A R b0 bR) ++ n.wire.flatMap (w1 A b0))).Sublist exp

end

theorem sublist_flatMap {A C : Type} {l l' : List A} (f : A → List C) (h : l.Sublist l') :
    (l.flatMap f).Sublist (l'.flatMap f) := by
  induction h with
  | slnil => exact .slnil
  | cons a _ ih => rw [List.flatMap_cons]; exact ih.trans (List.sublist_append_right _ _)
  | cons_cons a _ ih => rw [List.flatMap_cons, List.flatMap_cons]; exact (List.Sublist.refl _).append ih

/-- Destinations are distinct, so at most one of them counts. -/
theorem one_dest {C D : Type} [DecidableEq D] (l : List D) (hl : l.Nodup) (d : D) (c : C) (f : D → List C)
    (hf : ∀ x, f x = if x = d then [c] else []) : (l.flatMap f).Sublist [c] := by
  induction l with
  | nil => simp
  | cons a l ih =>
    rw [List.nodup_cons] at hl
    rw [List.flatMap_cons, hf a]
    by_cases e : a = d
    · rw [if_pos e, flatMap_eq_nil' l f (fun x hx => by rw [hf, if_neg]; rintro rfl; exact hl.1 (e ▸ hx))]
      exact List.Sublist.refl _
    · rw [if_neg e]; exact ih hl.2

/-- One loop handles a frame: on each of the two stretches of the path nothing overtakes anything. -/
theorem take_stretch (b : B) (frm : Dest B) (i : Item B) (pend : List (Todo B)) (l1 l2 wire' : List (Item B))
    (ds : List (Dest B)) (hds : ds.Nodup) (q : Todo B → List Nat) (w : Item B → List Nat) (on : B → Dest B → Prop)
    (d : Dest B) (hidle : ∀ t ∈ pend, ¬ (t.here = b ∧ t.frm = frm)) (hl1 : ∀ j ∈ l1, ¬ (j.here = b ∧ j.frm = frm))
    (hw' : wire'.Sublist (l1 ++ l2)) (hon : ∀ b b' f f', on b f → on b' f' → b = b' ∧ f = f')
    (hq : ∀ t, ¬ on t.here t.frm → q t = []) (hw : ∀ i, ¬ on i.here i.frm → w i = [])
    (hqw : on b frm → ∀ x, q ⟨b, frm, i.pkt, x⟩ = if x = d then w i else []) :
    ((pend ++ ds.map (fun d => (⟨b, frm, i.pkt, d⟩ : Todo B))).flatMap q ++ wire'.flatMap w).Sublist
      (pend.flatMap q ++ (l1 ++ i :: l2).flatMap w) := by
  by_cases h : on b frm
  · have e1 : pend.flatMap q = [] := flatMap_eq_nil' _ _ fun t ht => hq t fun h' => hidle t ht (hon _ _ _ _ h' h)
    have e2 : l1.flatMap w = [] := flatMap_eq_nil' _ _ fun t ht => hw t fun h' => hl1 t ht (hon _ _ _ _ h' h)
    rw [List.flatMap_append, e1, List.nil_append, List.nil_append, List.flatMap_append, e2, List.nil_append, List.flatMap_cons]
    refine List.Sublist.append ?_ ?_
    · rw [List.flatMap_map]
      clear hw' hl1 hidle e1 e2
      induction ds with
      | nil => simp
      | cons a ds ih =>
        rw [List.nodup_cons] at hds
        rw [List.flatMap_cons, hqw h a]
        by_cases e : a = d
        · rw [if_pos e, flatMap_eq_nil' ds _ (fun x hx => by
            rw [hqw h x, if_neg]; rintro rfl; exact hds.1 (e ▸ hx)), List.append_nil]
          exact List.Sublist.refl _
        · rw [if_neg e]; exact ih hds.2
    · have := sublist_flatMap w hw'
      rwa [List.flatMap_append, e2, List.nil_append] at this
  · have e1 : (ds.map (fun d => (⟨b, frm, i.pkt, d⟩ : Todo B))).flatMap q = [] := by
      apply flatMap_eq_nil'
      intro t ht
      obtain ⟨x, -, rfl⟩ := List.mem_map.1 ht
      exact hq _ h
    rw [List.flatMap_append, e1, List.append_nil]
    refine List.Sublist.append (List.Sublist.refl _) ((sublist_flatMap w hw').trans (sublist_flatMap w ?_))
    exact (List.Sublist.refl l1).append (List.sublist_cons_self _ _)

/-- The message of a label, if it is one of `A`'s. -/
def publishedAs (A : Bytes) : Label B H → List Nat
  | .publish _ a id _ => if a = A then [id] else []
  | _ => []

theorem orderInv_step (cfg : Cfg B σ) (A R : Bytes) (b0 bR : B) (hA : A ≠ []) (n : Net B H σ) (hh : HopInv n)
    (exp : List Nat) (h : OrderInv A R b0 bR n exp) (l : Label B H)
    (hpub : ∀ b id raw, l = .publish b A id raw → b = b0)
    (haway : ∀ b s, l = .setTable b s → b ≠ bR → s.getUserConnection R = none)
    (hself : ∀ s, l = .setTable b0 s → s.getBrokerConnection b0 = none) :
    OrderInv A R b0 bR (n.step cfg l)
      (exp ++ publishedAs A l) := by
  have hsub := h.sub
  cases l with
  | publish b a id raw =>
    refine ⟨h.away, h.self, ?_, h.pend, ?_⟩
    · intro i hi
      simp only [step, List.mem_append, List.mem_singleton] at hi
      rcases hi with hi | rfl
      · exact h.wire i hi
      · refine ⟨fun u hu => ?_, fun x hx => (by cases hx)⟩
        cases hu
        refine ⟨rfl, ?_⟩
        rintro rfl
        exact hpub b id raw rfl
    · have e2 : w2 A b0 bR (⟨b, .user a, ⟨id, a, raw, 0⟩⟩ : Item B) = [] := by simp [w2]
      have e1 : w1 A b0 (⟨b, .user a, ⟨id, a, raw, 0⟩⟩ : Item B) = if a = A then [id] else [] := by
        unfold w1
        by_cases ha : a = A
        · subst ha; rw [hpub b id raw rfl]; simp
        · simp [ha]
      simp only [step, publishedAs, received, List.flatMap_append, List.flatMap_cons, List.flatMap_nil, e1, e2, List.append_nil]
      simp only [received, ← List.append_assoc] at hsub ⊢
      exact hsub.append (List.Sublist.refl _)
  | originate b b' id raw =>
    simp only [publishedAs, List.append_nil]
    refine ⟨h.away, h.self, ?_, h.pend, ?_⟩
    · intro i hi
      simp only [step, List.mem_append, List.mem_singleton] at hi
      rcases hi with hi | rfl
      · exact h.wire i hi
      · exact ⟨fun u hu => (by cases hu), fun x hx hs => absurd hs.symm hA⟩
    · have e2 : w2 A b0 bR (⟨b, .broker b', ⟨id, [], raw, 1⟩⟩ : Item B) = [] := by
        unfold w2; rw [if_neg]; rintro ⟨-, -, h⟩; exact hA h.symm
      have e1 : w1 A b0 (⟨b, .broker b', ⟨id, [], raw, 1⟩⟩ : Item B) = [] := by simp [w1]
      simp only [step, received, List.flatMap_append, List.flatMap_cons, List.flatMap_nil, e1, e2, List.append_nil]
      exact hsub
  | setTable b s =>
    simp only [publishedAs, List.append_nil]
    refine ⟨fun b' hb' => ?_, ?_, h.wire, h.pend, hsub⟩
    · by_cases e : b' = b
      · subst e; simp only [step, upd, if_true]; exact haway b' s rfl hb'
      · simp only [step, upd, if_neg e]; exact h.away b' hb'
    · by_cases e : b0 = b
      · subst e; simp only [step, upd, if_true]; exact hself s rfl
      · simp only [step, upd, if_neg e]; exact h.self
  | take b frm =>
    simp only [publishedAs, List.append_nil]
    simp only [step]
    split
    · exact h
    · rename_i hidle
      cases hf : n.wire.find? (Item.for' b frm) with
      | none => exact h
      | some i =>
        obtain ⟨l1, l2, e, hp, hl1, herase⟩ := find?_split hf
        obtain ⟨hib, hif⟩ := item_for hp
        have hi : i ∈ n.wire := by rw [e]; simp
        have hidle' : ∀ t ∈ n.pend, ¬ (t.here = b ∧ t.frm = frm) := by
          intro t ht h'
          apply hidle
          rw [List.any_eq_true]
          exact ⟨t, ht, by simp [Todo.for', h'.1, h'.2]⟩
        have hl1' : ∀ j ∈ l1, ¬ (j.here = b ∧ j.frm = frm) := by
          intro j hj h'
          have := hl1 j hj
          simp [Item.for', h'.1, h'.2] at this
        simp only
        generalize hr : route cfg (n.tab b) (n.hook b frm) frm i.pkt.raw = r
        have hnd : r.2.1.Nodup := hr ▸ nodup_route cfg _ _ _ _
        generalize hw' : (if r.2.2 = true then n.wire.eraseP (Item.for' b frm)
          else n.wire.filter (fun i => !Item.for' b frm i)) = wire'
        have hs' : wire'.Sublist (l1 ++ l2) := by
          subst hw'
          split
          · rw [herase]; exact List.Sublist.refl _
          · rw [e, List.filter_append, List.filter_cons_of_neg (by simp [hp])]
            exact List.filter_sublist.append List.filter_sublist
        have hmem : ∀ j ∈ wire', j ∈ n.wire := by
          intro j hj
          have := hs'.subset hj
          rw [e]
          rcases List.mem_append.1 this with h | h <;> simp [h]
        refine ⟨h.away, h.self, fun j hj => h.wire j (hmem j hj), ?_, ?_⟩
        · intro t ht
          rcases List.mem_append.1 ht with ht | ht
          · exact h.pend t ht
          · obtain ⟨x, -, rfl⟩ := List.mem_map.1 ht
            have := h.wire i hi
            rw [hib, hif] at this
            exact this
        · refine List.Sublist.trans ?_ hsub
          refine List.Sublist.append (List.Sublist.append (List.Sublist.refl _) ?_) ?_
          · rw [e]
            refine take_stretch b frm i n.pend l1 l2 wire' r.2.1 hnd (q2 A R b0 bR) (w2 A b0 bR)
              (fun b f => b = bR ∧ f = .broker b0) (.user R) hidle' hl1' hs'
              (fun _ _ _ _ h h' => ⟨h.1.trans h'.1.symm, h.2.trans h'.2.symm⟩) ?_ ?_ ?_
            · intro t ht; unfold q2; rw [if_neg]; rintro ⟨h1, h2, -⟩; exact ht ⟨h1, h2⟩
            · intro t ht; unfold w2; rw [if_neg]; rintro ⟨h1, h2, -⟩; exact ht ⟨h1, h2⟩
            · rintro ⟨h1, h2⟩ x
              simp only [q2, w2, hib, hif, h1, h2, true_and]
              by_cases e1 : i.pkt.src = A <;> by_cases e2 : x = .user R <;> simp [e1, e2]
          · rw [e]
            refine take_stretch b frm i n.pend l1 l2 wire' r.2.1 hnd (q1 A R b0 bR) (w1 A b0)
              (fun b f => b = b0 ∧ f = .user A) (hop R b0 bR) hidle' hl1' hs'
              (fun _ _ _ _ h h' => ⟨h.1.trans h'.1.symm, h.2.trans h'.2.symm⟩) ?_ ?_ ?_
            · intro t ht; unfold q1; rw [if_neg]; rintro ⟨h1, h2, -⟩; exact ht ⟨h1, h2⟩
            · intro t ht; unfold w1; rw [if_neg]; rintro ⟨h1, h2⟩; exact ht ⟨h1, h2⟩
            · rintro ⟨h1, h2⟩ x
              simp only [q1, w1, hib, hif, h1, h2, true_and, and_self, if_true]
  | send b frm ok =>
    simp only [publishedAs, List.append_nil]
    simp only [step]
    cases hf : n.pend.find? (Todo.for' b frm) with
    | none => exact h
    | some t =>
      obtain ⟨l1, l2, e, hp, hl1, herase⟩ := find?_split hf
      obtain ⟨htb, htf⟩ := todo_for hp
      have ht : t ∈ n.pend := by rw [e]; simp
      have hl1' : ∀ j ∈ l1, ¬ (j.here = b ∧ j.frm = frm) := by
        intro j hj h'
        have := hl1 j hj
        simp [Todo.for', h'.1, h'.2] at this
      have hs' : (l1 ++ l2).Sublist n.pend := by
        rw [e]; exact (List.Sublist.refl l1).append (List.sublist_cons_self _ _)
      have hpend : ∀ x ∈ l1 ++ l2, From A b0 x.here x.frm x.pkt := fun x hx => h.pend x (hs'.subset hx)
      have hfrom := h.pend t ht
      simp only [herase]
      have hlost : OrderInv A R b0 bR { n with pend := l1 ++ l2 } exp := by
        refine ⟨h.away, h.self, h.wire, hpend, List.Sublist.trans ?_ hsub⟩
        exact ((List.Sublist.refl _).append ((sublist_flatMap _ hs').append (List.Sublist.refl _))).append
          ((sublist_flatMap _ hs').append (List.Sublist.refl _))
      split
      · rename_i hok
        have hlk : (lookup (n.tab b) t.dest).isSome := by
          cases hx : (lookup (n.tab b) t.dest).isSome with
          | true => rfl
          | false => rw [hx] at hok; simp at hok
        cases hd : t.dest with
        | user u =>
          simp only
          refine ⟨h.away, h.self, h.wire, hpend, ?_⟩
          by_cases hu : u = R ∧ t.pkt.src = A
          · obtain ⟨rfl, hsrc⟩ := hu
            have hbR : b = bR := by
              refine Classical.byContradiction fun hne => ?_
              rw [hd] at hlk
              simp only [lookup, h.away b hne] at hlk
              cases hlk
            have erec : received A u ({ n with pend := l1 ++ l2, inbox := n.inbox ++ [(u, t.pkt)] } : Net B H σ) =
                received A u n ++ [t.pkt.id] := by
              simp [received, hsrc]
            rw [erec]
            refine List.Sublist.trans ?_ hsub
            cases hfr : t.frm with
            | user v =>
              obtain ⟨hv, hv0⟩ := hfrom.1 v hfr
              have hvA : v = A := hv.symm.trans hsrc
              have h0 : b = b0 := htb ▸ hv0 hvA
              have hbb : b0 = bR := h0 ▸ hbR
              have n2 : ∀ {l : List (Item B)}, (∀ i ∈ l, i ∈ n.wire) → l.flatMap (w2 A b0 bR) = [] := by
                intro l hl
                apply flatMap_eq_nil'
                intro i hi
                unfold w2; rw [if_neg]
                rintro ⟨h1, h2, h3⟩
                exact ((h.wire i (hl i hi)).2 b0 h2 h3).2 (h1.trans hbb.symm)
              have m2 : ∀ {l : List (Todo B)}, (∀ i ∈ l, i ∈ n.pend) → l.flatMap (q2 A u b0 bR) = [] := by
                intro l hl
                apply flatMap_eq_nil'
                intro i hi
                unfold q2; rw [if_neg]
                rintro ⟨h1, h2, h3, -⟩
                exact ((h.pend i (hl i hi)).2 b0 h2 h3).2 (h1.trans hbb.symm)
              have e1 : l1.flatMap (q1 A u b0 bR) = [] := by
                apply flatMap_eq_nil'
                intro j hj
                unfold q1; rw [if_neg]
                rintro ⟨h1, h2, -⟩
                exact hl1' j hj ⟨h1.trans h0.symm, by rw [h2, ← htf, hfr, hvA]⟩
              have et : q1 A u b0 bR t = [t.pkt.id] := by
                unfold q1
                rw [if_pos]
                exact ⟨htb.trans h0, by rw [hfr, hvA], by rw [hd, hop, if_pos hbb]⟩
              dsimp only
              rw [n2 (fun _ h => h), m2 (fun x hx => hs'.subset hx), m2 (l := n.pend) (fun _ h => h), e, List.flatMap_append,
                List.flatMap_append, List.flatMap_cons, e1, et]
              simp
            | broker x =>
              obtain ⟨rfl, hne⟩ := hfrom.2 x hfr hsrc
              have e1 : l1.flatMap (q2 A u x bR) = [] := by
                apply flatMap_eq_nil'
                intro j hj
                unfold q2; rw [if_neg]
                rintro ⟨h1, h2, -⟩
                exact hl1' j hj ⟨h1.trans hbR.symm, by rw [h2, ← htf, hfr]⟩
              have et : q2 A u x bR t = [t.pkt.id] := by
                unfold q2
                rw [if_pos]
                exact ⟨htb.trans hbR, hfr, hsrc, hd⟩
              have eq : (l1 ++ l2).flatMap (q1 A u x bR) = n.pend.flatMap (q1 A u x bR) := by
                rw [e, List.flatMap_append, List.flatMap_append, List.flatMap_cons]
                have : q1 A u x bR t = [] := by unfold q1; rw [if_neg]; rintro ⟨-, h2, -⟩; rw [hfr] at h2; cases h2
                rw [this]; rfl
              dsimp only
              rw [eq, e, List.flatMap_append (f := q2 A u x bR), List.flatMap_append (f := q2 A u x bR), List.flatMap_cons (f := q2 A u x bR), e1, et]
              simp
          · have erec : received A R ({ n with pend := l1 ++ l2, inbox := n.inbox ++ [(u, t.pkt)] } : Net B H σ) =
                received A R n := by
              simp only [received, List.flatMap_append, List.flatMap_cons, List.flatMap_nil, if_neg hu, List.append_nil]
            rw [erec]
            exact hlost.sub
        | broker b' =>
          simp only
          have hne : b = b0 → b' ≠ b0 := by
            rintro rfl rfl
            rw [hd] at hlk
            simp only [lookup, h.self] at hlk
            cases hlk
          have hfu : ∃ v, t.frm = .user v := by
            cases hfr : t.frm with
            | user v => exact ⟨v, rfl⟩
            | broker x =>
              obtain ⟨u, hu⟩ := hh.last t ht x hfr
              rw [hd] at hu; cases hu
          obtain ⟨v, hfr⟩ := hfu
          obtain ⟨hv, hv0⟩ := hfrom.1 v hfr
          refine ⟨h.away, h.self, ?_, hpend, ?_⟩
          · intro i hi
            rcases List.mem_append.1 hi with hi | hi
            · exact h.wire i hi
            · rw [List.mem_singleton] at hi
              subst hi
              refine ⟨fun u hu => (by cases hu), fun x hx hs => ?_⟩
              cases hx
              have h0 : b = b0 := htb ▸ hv0 (hv.symm.trans hs)
              exact ⟨h0, hne h0⟩
          · have e1 : w1 A b0 (⟨b', .broker b, { t.pkt with hops := t.pkt.hops + 1 }⟩ : Item B) = [] := by simp [w1]
            refine List.Sublist.trans ?_ hsub
            by_cases hc : b' = bR ∧ b = b0 ∧ t.pkt.src = A
            · obtain ⟨rfl, rfl, hsrc⟩ := hc
              have e2 : w2 A b b' (⟨b', .broker b, { t.pkt with hops := t.pkt.hops + 1 }⟩ : Item B) = [t.pkt.id] := by
                simp [w2, hsrc]
              have hvA : v = A := hv.symm.trans hsrc
              have el : l1.flatMap (q1 A R b b') = [] := by
                apply flatMap_eq_nil'
                intro j hj
                unfold q1; rw [if_neg]
                rintro ⟨h1, h2, -⟩
                exact hl1' j hj ⟨h1, by rw [h2, ← htf, hfr, hvA]⟩
              have et : q1 A R b b' t = [t.pkt.id] := by
                unfold q1
                rw [if_pos]
                exact ⟨htb, by rw [hfr, hvA], by rw [hd, hop, if_neg (fun h => hne rfl h.symm)]⟩
              simp only [received, List.flatMap_append, List.flatMap_cons, List.flatMap_nil, e1, e2, el, List.append_nil,
                List.nil_append]
              rw [e]
              simp only [List.flatMap_append, List.flatMap_cons, el, et, List.nil_append, List.append_assoc]
              refine (List.Sublist.refl _).append ((List.Sublist.refl _).append ?_)
              exact List.sublist_append_right _ _
            · have e2 : w2 A b0 bR (⟨b', .broker b, { t.pkt with hops := t.pkt.hops + 1 }⟩ : Item B) = [] := by
                unfold w2; rw [if_neg]
                rintro ⟨h1, h2, h3⟩
                refine hc ⟨h1, ?_, h3⟩
                simpa using h2
              have := ((List.Sublist.refl (received A R n)).append ((sublist_flatMap (q2 A R b0 bR) hs').append
                (List.Sublist.refl (n.wire.flatMap (w2 A b0 bR))))).append
                ((sublist_flatMap (q1 A R b0 bR) hs').append (List.Sublist.refl (n.wire.flatMap (w1 A b0))))
              simp only [received, List.flatMap_append, List.flatMap_cons, List.flatMap_nil, e1, e2, List.append_nil] at this ⊢
              exact this
      · exact hlost

theorem orderInv_start (tab : B → Table B H) (hook : B → Dest B → σ) (A R : Bytes) (b0 bR : B)
    (haway : ∀ b, b ≠ bR → (tab b).getUserConnection R = none) (hself : (tab b0).getBrokerConnection b0 = none) :
    OrderInv A R b0 bR (start tab hook) [] :=
  ⟨haway, hself, by simp [start], by simp [start], by simp [start, received]⟩

end Verif.Net

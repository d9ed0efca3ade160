import Verif.Model.Network
import Verif.Lemmas.Broker

/-!
# Lemmas about the network model
-/

set_option linter.unusedSectionVars false

namespace Verif.Net
open Verif Verif.Conns Verif.Broker

variable {B H σ : Type} [DecidableEq B] [DecidableEq H] [LT B] [DecidableLT B]

theorem find?_split {A : Type} {p : A → Bool} {l : List A} {a : A} (h : l.find? p = some a) :
    ∃ l1 l2, l = l1 ++ a :: l2 ∧ p a = true ∧ (∀ x ∈ l1, p x = false) ∧ l.eraseP p = l1 ++ l2 := by
  induction l with
  | nil => simp at h
  | cons x l ih =>
    rw [List.find?_cons] at h
    cases hp : p x with
    | true =>
      rw [hp] at h
      have hx := Option.some.inj h
      subst hx
      exact ⟨[], l, rfl, hp, by simp, by simp [List.eraseP_cons, hp]⟩
    | false =>
      rw [hp] at h
      obtain ⟨l1, l2, e, h1, h2, h3⟩ := ih h
      refine ⟨x :: l1, l2, by rw [e]; rfl, h1, ?_, ?_⟩
      · intro y hy
        rcases List.mem_cons.1 hy with rfl | hy
        · exact hp
        · exact h2 y hy
      · rw [List.eraseP_cons, hp]; simp [h3]

theorem lookup_eq (s : Table B H) (d : Dest B) : lookup s d = connOf s d := by cases d <;> rfl

theorem run_cons (cfg : Cfg B σ) (n : Net B H σ) (l : Label B H) (ls : List (Label B H)) :
    n.run cfg (l :: ls) = (n.step cfg l).run cfg ls := rfl

theorem run_append (cfg : Cfg B σ) (n : Net B H σ) (a b : List (Label B H)) :
    n.run cfg (a ++ b) = (n.run cfg a).run cfg b := List.foldl_append

theorem item_for {b : B} {frm : Dest B} {i : Item B} (h : Item.for' b frm i = true) :
    i.here = b ∧ i.frm = frm := by
  simpa [Item.for'] using h

theorem todo_for {b : B} {frm : Dest B} {i : Todo B} (h : Todo.for' b frm i = true) :
    i.here = b ∧ i.frm = frm := by
  simpa [Todo.for'] using h

/-- Number of broker links crossed is determined by where a frame is. -/
structure HopInv (n : Net B H σ) : Prop where
  wire : ∀ i ∈ n.wire, i.pkt.hops = (match i.frm with | .user _ => 0 | .broker _ => 1)
  pend : ∀ t ∈ n.pend, t.pkt.hops = (match t.frm with | .user _ => 0 | .broker _ => 1)
  last : ∀ t ∈ n.pend, ∀ b, t.frm = .broker b → ∃ u, t.dest = .user u
  inbox : ∀ e ∈ n.inbox, e.2.hops ≤ 1

theorem hopInv_start (tab : B → Table B H) (hook : B → Dest B → σ) : HopInv (start tab hook) :=
  ⟨by simp [start], by simp [start], by simp [start], by simp [start]⟩

theorem hopInv_step (cfg : Cfg B σ) (n : Net B H σ) (h : HopInv n) (l : Label B H) :
    HopInv (n.step cfg l) := by
  cases l with
  | publish b u id raw =>
    refine ⟨?_, h.pend, h.last, h.inbox⟩
    intro i hi
    simp only [step, List.mem_append, List.mem_singleton] at hi
    rcases hi with hi | rfl
    · exact h.wire i hi
    · rfl
  | originate b b' id raw =>
    refine ⟨?_, h.pend, h.last, h.inbox⟩
    intro i hi
    simp only [step, List.mem_append, List.mem_singleton] at hi
    rcases hi with hi | rfl
    · exact h.wire i hi
    · rfl
  | setTable b s => exact ⟨h.wire, h.pend, h.last, h.inbox⟩
  | take b frm =>
    simp only [step]
    split
    · exact h
    · cases hf : n.wire.find? (Item.for' b frm) with
      | none => exact h
      | some i =>
        have hi := List.mem_of_find?_eq_some hf
        obtain ⟨rfl, rfl⟩ := item_for (List.find?_some hf)
        refine ⟨?_, ?_, ?_, h.inbox⟩
        · intro j hj
          simp only at hj
          split at hj
          · exact h.wire j (List.mem_of_mem_eraseP hj)
          · exact h.wire j (List.mem_filter.1 hj).1
        · intro t ht
          simp only [List.mem_append, List.mem_map] at ht
          rcases ht with ht | ⟨d, _, rfl⟩
          · exact h.pend t ht
          · exact h.wire i hi
        · intro t ht b' hb'
          simp only [List.mem_append, List.mem_map] at ht
          rcases ht with ht | ⟨d, hd, rfl⟩
          · exact h.last t ht b' hb'
          · simp only at hb'
            cases d with
            | user u => exact ⟨u, rfl⟩
            | broker b'' =>
              rw [hb'] at hd
              exact absurd hd (brokerRoute_users_only cfg _ _ _ b'')
  | send b frm ok =>
    simp only [step]
    cases hf : n.pend.find? (Todo.for' b frm) with
    | none => exact h
    | some t =>
      have ht := List.mem_of_find?_eq_some hf
      obtain ⟨rfl, rfl⟩ := todo_for (List.find?_some hf)
      have h1 : HopInv { n with pend := n.pend.eraseP (Todo.for' t.here t.frm) } :=
        ⟨h.wire, fun x hx => h.pend x (List.mem_of_mem_eraseP hx),
          fun x hx => h.last x (List.mem_of_mem_eraseP hx), h.inbox⟩
      simp only
      split
      · cases hd : t.dest with
        | user u =>
          refine ⟨h1.wire, h1.pend, h1.last, ?_⟩
          intro e he
          simp only [List.mem_append, List.mem_singleton] at he
          rcases he with he | rfl
          · exact h.inbox e he
          · have := h.pend t ht
            simp only
            rw [this]; split <;> omega
        | broker b' =>
          refine ⟨?_, h1.pend, h1.last, h1.inbox⟩
          intro j hj
          simp only [List.mem_append, List.mem_singleton] at hj
          rcases hj with hj | rfl
          · exact h.wire j hj
          · have h2 := h.pend t ht
            simp only
            cases hfr : t.frm with
            | user u => rw [hfr] at h2; simp only at h2; omega
            | broker b'' =>
              obtain ⟨u, hu⟩ := h.last t ht b'' hfr
              rw [hd] at hu; simp at hu
      · exact h1

theorem hopInv_run (cfg : Cfg B σ) (n : Net B H σ) (h : HopInv n) (ls : List (Label B H)) :
    HopInv (n.run cfg ls) := by
  induction ls generalizing n with
  | nil => exact h
  | cons l ls ih => exact ih _ (hopInv_step cfg n h l)

/-! ## Work measure -/

/-- Frames and sends still to be done, from user loops and from broker loops. -/
def fromUser : Dest B → Bool
  | .user _ => true
  | .broker _ => false

def wireU (n : Net B H σ) : Nat := n.wire.countP (fun i => fromUser i.frm)
def pendU (n : Net B H σ) : Nat := n.pend.countP (fun t => fromUser t.frm)
def wireB (n : Net B H σ) : Nat := n.wire.countP (fun i => !fromUser i.frm)
def pendB (n : Net B H σ) : Nat := n.pend.countP (fun t => !fromUser t.frm)

/-- Lexicographic work measure. -/
def work (n : Net B H σ) : Nat × Nat × Nat × Nat := (n.wireU, n.pendU, n.wireB, n.pendB)

/-- Lexicographic order on four counters. -/
def Less : Nat × Nat × Nat × Nat → Nat × Nat × Nat × Nat → Prop :=
  Prod.Lex (· < ·) (Prod.Lex (· < ·) (Prod.Lex (· < ·) (· < ·)))

theorem wf_less : WellFounded Less :=
  (Prod.lex ⟨_, Nat.lt_wfRel.wf⟩ (Prod.lex ⟨_, Nat.lt_wfRel.wf⟩
    (Prod.lex ⟨_, Nat.lt_wfRel.wf⟩ ⟨_, Nat.lt_wfRel.wf⟩))).wf

/-- The loop named by the label really has something to do. -/
def Enabled (n : Net B H σ) : Label B H → Prop
  | .take b frm => n.pend.any (Todo.for' b frm) = false ∧ (n.wire.find? (Item.for' b frm)).isSome
  | .send b frm _ => (n.pend.find? (Todo.for' b frm)).isSome
  | _ => False

theorem countP_split {A : Type} (q : A → Bool) (l1 l2 : List A) (a : A) :
    (l1 ++ a :: l2).countP q = (l1 ++ l2).countP q + (if q a then 1 else 0) := by
  simp only [List.countP_append, List.countP_cons]; omega

theorem countP_map_const {A C : Type} (q : C → Bool) (f : A → C) (l : List A) (v : Bool)
    (h : ∀ a, q (f a) = v) : (l.map f).countP q = if v then l.length else 0 := by
  induction l with
  | nil => cases v <;> rfl
  | cons a l ih => rw [List.map_cons, List.countP_cons, ih, h]; cases v <;> simp

theorem work_decreases (cfg : Cfg B σ) (n : Net B H σ) (h : HopInv n) (l : Label B H)
    (he : Enabled n l) : Less (work (n.step cfg l)) (work n) := by
  cases l with
  | publish => exact he.elim
  | originate => exact he.elim
  | setTable => exact he.elim
  | take b frm =>
    obtain ⟨hidle, hsome⟩ := he
    obtain ⟨i, hf⟩ := Option.isSome_iff_exists.1 hsome
    obtain ⟨l1, l2, e, hp, _, hera⟩ := find?_split hf
    obtain ⟨rfl, rfl⟩ := item_for hp
    have hst : (n.step cfg (.take i.here i.frm)) =
        { n with
          hook := upd n.hook i.here (upd (n.hook i.here) i.frm
            (route cfg (n.tab i.here) (n.hook i.here i.frm) i.frm i.pkt.raw).1)
          wire := if (route cfg (n.tab i.here) (n.hook i.here i.frm) i.frm i.pkt.raw).2.2
                  then n.wire.eraseP (Item.for' i.here i.frm)
                  else n.wire.filter (fun j => !Item.for' i.here i.frm j)
          pend := n.pend ++ (route cfg (n.tab i.here) (n.hook i.here i.frm) i.frm
            i.pkt.raw).2.1.map (fun d => ⟨i.here, i.frm, i.pkt, d⟩) } := by
      simp only [step, hidle, hf]; rfl
    rw [hst]
    generalize route cfg (n.tab i.here) (n.hook i.here i.frm) i.frm i.pkt.raw = r
    -- the new wire is smaller by the taken frame, and no larger elsewhere
    have hle : ∀ q : Item B → Bool, q i = true →
        ((if r.2.2 then n.wire.eraseP (Item.for' i.here i.frm)
          else n.wire.filter (fun j => !Item.for' i.here i.frm j)).countP q) < n.wire.countP q := by
      intro q hq
      split
      · rw [hera, e, countP_split, hq]; simp
      · rw [e, List.filter_append, List.filter_cons, hp, countP_split, hq]
        simp only [Bool.not_true, Bool.false_eq_true, if_false, if_true, List.countP_append]
        have h1 := List.Sublist.countP_le (p := q)
          (List.filter_sublist (p := fun j => !Item.for' i.here i.frm j) (l := l1))
        have h2 := List.Sublist.countP_le (p := q)
          (List.filter_sublist (p := fun j => !Item.for' i.here i.frm j) (l := l2))
        omega
    have heq : ∀ q : Item B → Bool, (∀ j, j.frm = i.frm → q j = false) →
        ((if r.2.2 then n.wire.eraseP (Item.for' i.here i.frm)
          else n.wire.filter (fun j => !Item.for' i.here i.frm j)).countP q) = n.wire.countP q := by
      intro q hq
      split
      · rw [hera, e, countP_split, hq i rfl]; simp
      · rw [List.countP_filter]
        apply List.countP_congr
        intro j _
        constructor
        · intro h; simp at h; exact h.1
        · intro h
          simp only [Bool.and_eq_true, Bool.not_eq_true']
          refine ⟨h, ?_⟩
          cases hj : Item.for' i.here i.frm j with
          | false => rfl
          | true => rw [hq j (item_for hj).2] at h; simp at h
    cases hfr : i.frm with
    | user u =>
      apply Prod.Lex.left
      exact hfr ▸ hle (fun j => fromUser j.frm) (by rw [hfr]; rfl)
    | broker b' =>
      have e1 := heq (fun j => fromUser j.frm) (by intro j hj; rw [hj, hfr]; rfl)
      have e2 : (n.pend ++ r.2.1.map (fun d => (⟨i.here, i.frm, i.pkt, d⟩ : Todo B))).countP
          (fun t => fromUser t.frm) = n.pend.countP (fun t => fromUser t.frm) := by
        rw [List.countP_append, countP_map_const _ _ _ false (by intro a; rw [hfr]; rfl)]
        rfl
      have e3 := hle (fun j => !fromUser j.frm) (by rw [hfr]; rfl)
      rw [hfr] at e1 e2 e3
      unfold work wireU pendU wireB pendB
      simp only
      rw [e1, e2]
      exact Prod.Lex.right _ (Prod.Lex.right _ (Prod.Lex.left _ _ e3))
  | send b frm ok =>
    obtain ⟨t, hf⟩ := Option.isSome_iff_exists.1 he
    obtain ⟨l1, l2, e, hp, _, hera⟩ := find?_split hf
    obtain ⟨rfl, rfl⟩ := todo_for hp
    have ht := List.mem_of_find?_eq_some hf
    have hlt : ∀ q : Todo B → Bool, q t = true →
        (n.pend.eraseP (Todo.for' t.here t.frm)).countP q < n.pend.countP q := by
      intro q hq; rw [hera, e, countP_split, hq]; simp
    have heq : ∀ q : Todo B → Bool, q t = false →
        (n.pend.eraseP (Todo.for' t.here t.frm)).countP q = n.pend.countP q := by
      intro q hq; rw [hera, e, countP_split, hq]; simp
    cases hfr : t.frm with
    | user u =>
      have h1 := hlt (fun x => fromUser x.frm) (by rw [hfr]; rfl)
      rw [hfr] at h1 hf
      simp only [step, hf]
      split
      · cases hd : t.dest with
        | user u' => exact Prod.Lex.right _ (Prod.Lex.left _ _ h1)
        | broker b' =>
          unfold work wireU pendU wireB pendB
          simp only [List.countP_append, List.countP_singleton, fromUser]
          exact Prod.Lex.right _ (Prod.Lex.left _ _ h1)
      · exact Prod.Lex.right _ (Prod.Lex.left _ _ h1)
    | broker b' =>
      obtain ⟨u, hu⟩ := h.last t ht b' hfr
      have h1 := heq (fun x => fromUser x.frm) (by rw [hfr]; rfl)
      have h2 := hlt (fun x => !fromUser x.frm) (by rw [hfr]; rfl)
      rw [hfr] at h1 h2 hf
      simp only [step, hf, hu]
      have key : Less (n.wireU, (n.pend.eraseP (Todo.for' t.here (.broker b'))).countP
          (fun x => fromUser x.frm), n.wireB, (n.pend.eraseP (Todo.for' t.here (.broker b'))).countP
          (fun x => !fromUser x.frm)) (work n) := by
        rw [h1]
        exact Prod.Lex.right _ (Prod.Lex.right _ (Prod.Lex.right _ h2))
      split
      · exact key
      · exact key

/-- Steps that bring in nothing new and are not enabled leave the work unchanged. -/
theorem work_unchanged (cfg : Cfg B σ) (n : Net B H σ) (l : Label B H) (he : ¬ Enabled n l)
    (hl : ∀ b u id raw, l ≠ .publish b u id raw) (hl' : ∀ b b' id raw, l ≠ .originate b b' id raw) :
    work (n.step cfg l) = work n := by
  cases l with
  | publish b u id raw => exact absurd rfl (hl b u id raw)
  | originate b b' id raw => exact absurd rfl (hl' b b' id raw)
  | setTable b s => rfl
  | take b frm =>
    simp only [step]
    split
    · rfl
    · rename_i hp
      cases hf : n.wire.find? (Item.for' b frm) with
      | none => rfl
      | some i => exact absurd ⟨by simpa using hp, by rw [hf]; rfl⟩ he
  | send b frm ok =>
    simp only [step]
    cases hf : n.pend.find? (Todo.for' b frm) with
    | none => rfl
    | some t => exact absurd (show (n.pend.find? _).isSome = true by rw [hf]; rfl) he

end Verif.Net

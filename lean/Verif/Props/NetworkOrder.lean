import Verif.Lemmas.NetworkOrder
import Verif.Props.Network

/-!
# C20: the order of messages whatever happens to the routing tables
-/

set_option linter.unusedSectionVars false

namespace Verif.Props.NetworkOrder
open Verif Verif.Net Verif.Conns Verif.Broker Verif.Props.Network

variable {B H σ : Type} [DecidableEq B] [DecidableEq H] [LT B] [DecidableLT B]

/-- The messages `a` published, in order. -/
def publishedBy (a : Bytes) : List (Label B H) → List Nat
  | [] => []
  | .publish _ a' id _ :: ls => if a' = a then id :: publishedBy a ls else publishedBy a ls
  | _ :: ls => publishedBy a ls

theorem publishedBy_cons (a : Bytes) (l : Label B H) (ls : List (Label B H)) :
    publishedBy a (l :: ls) = publishedAs a l ++ publishedBy a ls := by
  cases l <;> simp only [publishedBy, publishedAs, List.nil_append]
  split <;> rfl

/-- **C20 (order, always).** Any tables, consistent or not, that may change at any time in any way; any hooks; any sends may
fail, any receive loop may end. As long as `a` publishes at the broker `b0` only, `r` is connected to no broker but `bR`, and `b0`
has no connection to itself, what `r` has received from `a` is a subsequence of what `a` published: messages may be lost, but
none arrives twice and none overtakes another one. -/
theorem C20_order_always (cfg : Cfg B σ) (tab : B → Table B H) (hook : B → Dest B → σ) (ls : List (Label B H))
    (a r : Bytes) (ha : a ≠ []) (b0 bR : B)
    (hpub : ∀ b id raw, Label.publish b a id raw ∈ ls → b = b0)
    (haway : ∀ b, b ≠ bR → (tab b).getUserConnection r = none ∧
      ∀ s, Label.setTable b s ∈ ls → s.getUserConnection r = none)
    (hself : (tab b0).getBrokerConnection b0 = none ∧
      ∀ s, Label.setTable b0 s ∈ ls → s.getBrokerConnection b0 = none) :
    (receivedFrom ((start tab hook).run cfg ls) a r).Sublist (publishedBy a ls) := by
  have key : ∀ (ls : List (Label B H)) (n : Net B H σ) (exp : List Nat), HopInv n → OrderInv a r b0 bR n exp →
      (∀ b id raw, Label.publish b a id raw ∈ ls → b = b0) →
      (∀ b, b ≠ bR → ∀ s, Label.setTable b s ∈ ls → s.getUserConnection r = none) →
      (∀ s, Label.setTable b0 s ∈ ls → s.getBrokerConnection b0 = none) →
      OrderInv a r b0 bR (n.run cfg ls) (exp ++ publishedBy a ls) := by
    intro ls
    induction ls with
    | nil => intro n exp _ h _ _ _; rw [publishedBy, List.append_nil]; exact h
    | cons l ls ih =>
      intro n exp hh h h1 h2 h3
      have hs := orderInv_step cfg a r b0 bR ha n hh exp h l
        (fun b id raw e => h1 b id raw (by simp [e])) (fun b s e hb => h2 b hb s (by simp [e]))
        (fun s e => h3 s (by simp [e]))
      have := ih _ _ (hopInv_step cfg n hh l) hs (fun b id raw hm => h1 b id raw (List.mem_cons_of_mem _ hm))
        (fun b hb s hm => h2 b hb s (List.mem_cons_of_mem _ hm)) (fun s hm => h3 s (List.mem_cons_of_mem _ hm))
      rw [List.append_assoc, ← publishedBy_cons] at this
      exact this
  have h := (key ls (start tab hook) [] (hopInv_start tab hook)
    (orderInv_start tab hook a r b0 bR (fun b hb => (haway b hb).1) hself.1) hpub
    (fun b hb => (haway b hb).2) hself.2).sub
  rw [List.nil_append] at h
  refine List.Sublist.trans ?_ h
  rw [List.append_assoc]
  exact List.sublist_append_left _ _

/-- A case: broker 0 forgets broker 1 while the second of three messages is on its way through it, and learns of it again; the
messages 7 and 9 arrive. -/
example :
    let tab : Nat → Table Nat Nat := fun b => if b < 2 then demoTab b else Conns.new b
    let gone : Table Nat Nat := (Conns.new 0).run [.addUser [1] 11 [0]]
    let ls : List (Label Nat Nat) :=
      [.publish 0 [1] 7 [3, 2], .publish 0 [1] 8 [3, 2], .publish 0 [1] 9 [4, 0], .take 0 (.user [1]),
        .send 0 (.user [1]) true, .take 0 (.user [1]), .setTable 0 gone, .send 0 (.user [1]) true, .setTable 0 (demoTab 0),
        .take 0 (.user [1]), .send 0 (.user [1]) true, .send 0 (.user [1]) true, .take 1 (.broker 0),
        .send 1 (.broker 0) true, .take 1 (.broker 0), .send 1 (.broker 0) true, .send 1 (.broker 0) true]
    (∀ b id raw, Label.publish b [1] id raw ∈ ls → b = 0) ∧
    (∀ b, b ≠ 1 → (tab b).getUserConnection [2] = none ∧ ∀ s, Label.setTable b s ∈ ls → s.getUserConnection [2] = none) ∧
    ((tab 0).getBrokerConnection 0 = none ∧ ∀ s, Label.setTable 0 s ∈ ls → s.getBrokerConnection 0 = none) ∧
    receivedFrom ((start tab (fun _ _ => 0)).run demoNet ls) [1] [2] = [7, 9] := by
  intro tab gone ls
  have hset : ∀ b s, Label.setTable b s ∈ ls → b = 0 ∧ (s = gone ∨ s = demoTab 0) := by
    intro b s h
    have h : b = 0 ∧ s = gone ∨ b = 0 ∧ s = demoTab 0 := by simpa [ls] using h
    rcases h with h | h
    · exact ⟨h.1, .inl h.2⟩
    · exact ⟨h.1, .inr h.2⟩
  refine ⟨fun b id raw h => ?_, fun b hb => ⟨?_, fun s h => ?_⟩, ⟨by decide, fun s h => ?_⟩, by decide +kernel⟩
  · simp only [ls, List.mem_cons, List.not_mem_nil, reduceCtorEq, Label.publish.injEq, or_false] at h
    rcases h with h | h | h <;> exact h.1
  · by_cases h0 : b < 2
    · have : b = 0 := by omega
      subst this; decide
    · simp only [tab, if_neg h0]; rfl
  · rcases (hset b s h).2 with rfl | rfl <;> decide
  · rcases (hset 0 s h).2 with rfl | rfl <;> decide

end Verif.Props.NetworkOrder

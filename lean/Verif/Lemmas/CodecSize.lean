import Verif.Lemmas.CodecBuild

/-!
# Lemmas about the size of an encoded message
-/

namespace Verif.Codec
open Verif
namespace Bld

/-- `b'` has all that `b` has allocated. -/
def Le (b b' : Bld) : Prop := ∀ s, b.used s ≤ b'.used s

theorem Le.trans {a b c : Bld} (h : Le a b) (h' : Le b c) : Le a c := fun s => Nat.le_trans (h s) (h' s)

theorem allocate_grow (pol : Policy) (b : Bld) (s i n k up : Nat) :
    Le b (b.allocate pol s i n k up).1 ∧ ∃ s', n ≤ (b.allocate pol s i n k up).1.used s' := by
  unfold allocate
  split
  · rename_i b' p hb
    obtain ⟨_, _, _, _, h5⟩ := alloc_spec hb
    refine ⟨fun s' => ?_, s, ?_⟩
    · show b.used s' ≤ b'.used s'
      rw [h5]
      split
      · rename_i e; subst e; omega
      · omega
    · show n ≤ b'.used s
      rw [h5, if_pos rfl]; omega
  · obtain ⟨_, _, _, _, _, h5⟩ := allocAnywhere_spec pol b (n + 1)
    generalize b.allocAnywhere pol (n + 1) = r at h5
    obtain ⟨b', t, q⟩ := r
    dsimp only at h5 ⊢
    refine ⟨fun s' => ?_, t, ?_⟩
    · show b.used s' ≤ b'.used s'
      rw [h5]
      split
      · rename_i e; subst e; omega
      · omega
    · show n ≤ b'.used t
      rw [h5, if_pos rfl]; omega

theorem initBytes_grow (pol : Policy) (b : Bld) (s i : Nat) (data : Bytes) :
    Le b (b.initBytes pol s i data) ∧ ∃ s', nw data ≤ (b.initBytes pol s i data).used s' :=
  allocate_grow pol b s i (nw data) 1 _

/-- The lists of bytes in a message as they are written. -/
def _root_.Verif.Codec.lists : Msg → List Bytes
  | .authKey k _ g => [k, g]
  | .authPermit _ => []
  | .authResponse _ c => [utf8 c ++ [0]]
  | .direct r m => [r, m]
  | .broadcast ts m => [ts, m]
  | .subscribe ts => [ts]
  | .unsubscribe ts => [ts]
  | .userSync d => [d]
  | .topicSync d => [d]

theorem build_lists (pol : Policy) (m : Msg) : ∀ l ∈ lists m, ∃ s, nw l ≤ (build pol m).used s := by
  cases m with
  | authPermit => simp [lists]
  | authKey k t g =>
    intro l hl
    simp only [lists, List.mem_cons, List.not_mem_nil, or_false] at hl
    unfold build
    dsimp only
    generalize (start pol).initStruct pol 0 0 1 1 = r
    generalize (r.1.set r.2.1 r.2.2 0).initStruct pol r.2.1 (r.2.2 + 1) 1 2 = q
    rcases hl with rfl | rfl
    · obtain ⟨s, hs⟩ := (initBytes_grow pol q.1 q.2.1 (q.2.2 + 1) l).2
      refine ⟨s, Nat.le_trans ?_ ((initBytes_grow pol _ _ _ g).1 s)⟩
      rw [used_set]
      exact hs
    · exact (initBytes_grow pol _ _ _ l).2
  | authResponse p c =>
    intro l hl
    simp only [lists, List.mem_cons, List.not_mem_nil, or_false] at hl
    subst hl
    exact (initBytes_grow pol _ _ _ _).2
  | direct x y =>
    intro l hl
    simp only [lists, List.mem_cons, List.not_mem_nil, or_false] at hl
    unfold build
    dsimp only
    generalize (start pol).initStruct pol 0 0 1 1 = r
    generalize (r.1.set r.2.1 r.2.2 3).initStruct pol r.2.1 (r.2.2 + 1) 0 2 = q
    rcases hl with rfl | rfl
    · obtain ⟨s, hs⟩ := (initBytes_grow pol _ _ _ l).2
      exact ⟨s, Nat.le_trans hs ((initBytes_grow pol _ _ _ y).1 s)⟩
    · exact (initBytes_grow pol _ _ _ l).2
  | broadcast x y =>
    intro l hl
    simp only [lists, List.mem_cons, List.not_mem_nil, or_false] at hl
    unfold build
    dsimp only
    generalize (start pol).initStruct pol 0 0 1 1 = r
    generalize (r.1.set r.2.1 r.2.2 4).initStruct pol r.2.1 (r.2.2 + 1) 0 2 = q
    rcases hl with rfl | rfl
    · obtain ⟨s, hs⟩ := (initBytes_grow pol _ _ _ l).2
      exact ⟨s, Nat.le_trans hs ((initBytes_grow pol _ _ _ y).1 s)⟩
    · exact (initBytes_grow pol _ _ _ l).2
  | subscribe x =>
    intro l hl
    simp only [lists, List.mem_cons, List.not_mem_nil, or_false] at hl
    subst hl
    exact (initBytes_grow pol _ _ _ _).2
  | unsubscribe x =>
    intro l hl
    simp only [lists, List.mem_cons, List.not_mem_nil, or_false] at hl
    subst hl
    exact (initBytes_grow pol _ _ _ _).2
  | userSync x =>
    intro l hl
    simp only [lists, List.mem_cons, List.not_mem_nil, or_false] at hl
    subst hl
    exact (initBytes_grow pol _ _ _ _).2
  | topicSync x =>
    intro l hl
    simp only [lists, List.mem_cons, List.not_mem_nil, or_false] at hl
    subst hl
    exact (initBytes_grow pol _ _ _ _).2

end Bld

/-- An encoded message is longer than each of its lists. -/
theorem length_lt_serialize (pol : Policy) (m : Msg) : ∀ l ∈ lists m, l.length < (serialize pol m).length := by
  intro l hl
  obtain ⟨s, hs⟩ := Bld.build_lists pol m l hl
  have h1 := Bld.used_le_total (build pol m) s
  have h2 := length_flatten (build pol m).out
  unfold serialize
  unfold Bld.nw at hs
  omega

theorem fits_iff (m : Msg) : Fits m ↔ ∀ l ∈ lists m, l.length < 2 ^ 29 := by
  cases m <;> simp [Fits, lists]

end Verif.Codec

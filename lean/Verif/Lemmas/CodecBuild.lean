import Verif.Lemmas.Codec

/-!
# Lemmas about building a message
-/

namespace Verif.Codec
open Verif

namespace Bld

/-- Words of segment `s` in use. -/
def used (b : Bld) (s : Nat) : Nat := (b.segs.getD s (0, 0)).2

/-- Sizes are bounded, unused memory is zero, words are words. -/
structure Inv (b : Bld) (M K : Nat) : Prop where
  used : ∀ s, b.used s ≤ M
  segs : b.segs.length ≤ K
  pos : 0 < b.segs.length
  zero : ∀ s j, b.used s ≤ j → b.word s j = 0
  word : ∀ s j, b.word s j < 2 ^ 64

/-- `b'` is `b` with more allocated, changed at most at these allocated places. -/
structure Ext (b b' : Bld) (T : Nat → Nat → Prop) : Prop where
  word : ∀ s j, j < b.used s → ¬ T s j → b'.word s j = b.word s j
  used : ∀ s, b.used s ≤ b'.used s

theorem Ext.refl (b : Bld) (T : Nat → Nat → Prop) : Ext b b T := ⟨fun _ _ _ _ => rfl, fun _ => Nat.le_refl _⟩

theorem Ext.trans {b b1 b2 : Bld} {T T' : Nat → Nat → Prop} (h : Ext b b1 T) (h' : Ext b1 b2 T') :
    Ext b b2 (fun s j => T s j ∨ T' s j) :=
  ⟨fun s j hj hT => (h'.word s j (Nat.lt_of_lt_of_le hj (h.used s)) (fun e => hT (Or.inr e))).trans
    (h.word s j hj (fun e => hT (Or.inl e))), fun s => Nat.le_trans (h.used s) (h'.used s)⟩

/-- The pointer at word `i` of segment `s` leads to an object at word `p` of segment `s'`; what else it uses is
not before word `f s'`. -/
def Res (b : Bld) (f : Nat → Nat) (s i s' p k up : Nat) : Prop :=
  (s' = s ∧ i < p ∧ b.word s i = mkPtr k (p - i - 1) up) ∨
  (∃ q, p = q + 1 ∧ f s' ≤ q ∧ b.word s i = mkFar q s' ∧ b.word s' q = mkPtr k 0 up)

theorem Res.ext {b b' : Bld} {f : Nat → Nat} {T : Nat → Nat → Prop} {s i s' p k up : Nat} (h : Res b f s i s' p k up)
    (he : Ext b b' T) (hi : i < b.used s) (hp : p ≤ b.used s') (hT : ¬ T s i) (hT' : ∀ q, p = q + 1 → f s' ≤ q → ¬ T s' q) :
    Res b' f s i s' p k up := by
  rcases h with ⟨h1, h2, h3⟩ | ⟨q, h1, h2, h3, h4⟩
  · exact Or.inl ⟨h1, h2, (he.word s i hi hT).trans h3⟩
  · exact Or.inr ⟨q, h1, h2, (he.word s i hi hT).trans h3, (he.word s' q (by omega) (hT' q h1 h2)).trans h4⟩

theorem used_set (b : Bld) (s i w s' : Nat) : (b.set s i w).used s' = b.used s' := rfl

theorem word_set (b : Bld) (s i w s' j : Nat) :
    (b.set s i w).word s' j = if s' = s ∧ j = i then w else b.word s' j := rfl

theorem ext_set (b : Bld) (s i w : Nat) : Ext b (b.set s i w) (fun s' j => s' = s ∧ j = i) :=
  ⟨fun s' j _ h => by rw [word_set, if_neg h], fun _ => Nat.le_refl _⟩

theorem inv_set {b : Bld} {M K : Nat} (h : Inv b M K) (s i w : Nat) (hi : i < b.used s) (hw : w < 2 ^ 64) :
    Inv (b.set s i w) M K := by
  refine ⟨h.used, h.segs, h.pos, fun s' j hj => ?_, fun s' j => ?_⟩
  · have hj : b.used s' ≤ j := hj
    rw [word_set, if_neg (by rintro ⟨rfl, rfl⟩; omega)]
    exact h.zero s' j hj
  · rw [word_set]
    split
    · exact hw
    · exact h.word s' j

theorem alloc_spec {b b' : Bld} {s n p : Nat} (h : b.alloc s n = some (b', p)) :
    p = b.used s ∧ s < b.segs.length ∧ b'.word = b.word ∧ b'.segs.length = b.segs.length ∧
    ∀ s', b'.used s' = if s' = s then b.used s + n else b.used s' := by
  unfold alloc at h
  split at h
  · rename_i c u hs
    split at h
    · rename_i hn
      simp only [Option.some.injEq, Prod.mk.injEq] at h
      obtain ⟨rfl, rfl⟩ := h
      have hlt : s < b.segs.length := (List.getElem?_eq_some_iff.1 hs).1
      have hu : b.used s = u := by simp [used, hs]
      refine ⟨hu.symm, hlt, rfl, by simp, fun s' => ?_⟩
      rw [hu]
      unfold used
      by_cases e : s' = s
      · subst e
        rw [if_pos rfl, List.getD_eq_getElem?_getD]
        simp [hlt]
      · rw [if_neg e, List.getD_eq_getElem?_getD, List.getD_eq_getElem?_getD, List.getElem?_set_ne (fun x => e x.symm)]
    · cases h
  · cases h

theorem allocIn_spec {b b' : Bld} {n s p : Nat} {ss : List Nat} (h : b.allocIn n ss = some (b', s, p)) :
    b.alloc s n = some (b', p) := by
  induction ss with
  | nil => cases h
  | cons a ss ih =>
    unfold allocIn at h
    split at h
    · rename_i b1 p1 h1
      simp only [Option.some.injEq, Prod.mk.injEq] at h
      obtain ⟨rfl, rfl, rfl⟩ := h
      exact h1
    · exact ih h

theorem allocAnywhere_spec (pol : Policy) (b : Bld) (n : Nat) :
    let r := b.allocAnywhere pol n
    r.2.2 = b.used r.2.1 ∧ r.2.1 < r.1.segs.length ∧ r.1.word = b.word ∧
    b.segs.length ≤ r.1.segs.length ∧ r.1.segs.length ≤ b.segs.length + 1 ∧
    ∀ s', r.1.used s' = if s' = r.2.1 then b.used r.2.1 + n else b.used s' := by
  unfold allocAnywhere
  split
  · rename_i r h
    obtain ⟨b', s, p⟩ := r
    obtain ⟨h1, h2, h3, h4, h5⟩ := alloc_spec (allocIn_spec h)
    exact ⟨h1, by dsimp only; omega, h3, by dsimp only; omega, by dsimp only; omega, h5⟩
  · have h0 : b.used b.segs.length = 0 := by simp [used]
    refine ⟨h0.symm, by simp, rfl, by simp, by simp, fun s' => ?_⟩
    dsimp only
    rw [h0]
    unfold used
    rw [List.getD_eq_getElem?_getD, List.getD_eq_getElem?_getD, List.getElem?_append]
    by_cases e : s' = b.segs.length
    · subst e; simp
    · rw [if_neg e]
      split
      · rfl
      · rename_i h
        have : b.segs.length < s' := by omega
        rw [List.getElem?_eq_none (by simp; omega), List.getElem?_eq_none (by omega)]

theorem mkPtr_lt {k o u : Nat} (hk : k < 4) (ho : o < 2 ^ 29) (hu : u < 2 ^ 32) : mkPtr k o u < 2 ^ 64 := by
  unfold mkPtr; omega

theorem mkFar_lt {q s : Nat} (hq : q < 2 ^ 29) (hs : s < 2 ^ 32) : mkFar q s < 2 ^ 64 := by
  unfold mkFar; omega

/-- What `allocate` does. -/
theorem allocate_spec (pol : Policy) {b : Bld} {M K : Nat} (h : Inv b M K) (s i n k up : Nat) (hi : i < b.used s)
    (hM : M + n + 1 < 2 ^ 29) (hK : K < 2 ^ 32) (hk : k < 4) (hup : up < 2 ^ 32) :
    let r := b.allocate pol s i n k up
    Inv r.1 (M + n + 1) (K + 1) ∧ Ext b r.1 (fun s' j => s' = s ∧ j = i) ∧
    Res r.1 b.used s i r.2.1 r.2.2 k up ∧ b.used r.2.1 ≤ r.2.2 ∧ r.2.2 + n ≤ r.1.used r.2.1 ∧
    (∀ j < n, r.1.word r.2.1 (r.2.2 + j) = 0) := by
  unfold allocate
  have hus := h.used s
  split
  · rename_i b' p hb
    obtain ⟨rfl, h2, h3, h4, h5⟩ := alloc_spec hb
    have hu : ∀ s', b.used s' ≤ b'.used s' ∧ b'.used s' ≤ b.used s' + n := by
      intro s'; rw [h5]; split
      · rename_i e; subst e; omega
      · omega
    have inv' : Inv b' (M + n + 1) (K + 1) := by
      refine ⟨fun s' => ?_, by have := h.segs; omega, by have := h.pos; omega, fun s' j hj => ?_, fun s' j => ?_⟩
      · have := h.used s'; have := hu s'; omega
      · rw [h3]; exact h.zero s' j (by have := hu s'; omega)
      · rw [h3]; exact h.word s' j
    refine ⟨inv_set inv' s i _ (by have := hu s; omega) (mkPtr_lt hk (by omega) hup), ⟨fun s' j hj hT => ?_, fun s' => ?_⟩,
      Or.inl ⟨rfl, hi, ?_⟩, Nat.le_refl _, ?_, fun j hj => ?_⟩
    · dsimp only
      rw [word_set, if_neg hT, h3]
    · exact (hu s').1
    · dsimp only
      rw [word_set, if_pos ⟨rfl, rfl⟩]
    · show b.used s + n ≤ b'.used s
      rw [h5, if_pos rfl]; omega
    · dsimp only
      rw [word_set, if_neg (by omega), h3]
      exact h.zero s _ (by omega)
  · obtain ⟨g1, g2, g3, g4, g4', g5⟩ := allocAnywhere_spec pol b (n + 1)
    generalize b.allocAnywhere pol (n + 1) = r at g1 g2 g3 g4 g4' g5
    obtain ⟨b', t, q⟩ := r
    dsimp only at g1 g2 g3 g4 g4' g5 ⊢
    subst g1
    have hut := h.used t
    have hu : ∀ s', b.used s' ≤ b'.used s' ∧ b'.used s' ≤ b.used s' + (n + 1) := by
      intro s'; rw [g5]; split
      · rename_i e; subst e; omega
      · omega
    have hsegs := h.segs
    have inv' : Inv b' (M + n + 1) (K + 1) := by
      refine ⟨fun s' => ?_, by omega, by have := h.pos; omega, fun s' j hj => ?_, fun s' j => ?_⟩
      · have := h.used s'; have := hu s'; omega
      · rw [g3]; exact h.zero s' j (by have := hu s'; omega)
      · rw [g3]; exact h.word s' j
    have i1 := inv_set inv' s i (mkFar (b.used t) t) (by have := hu s; omega) (mkFar_lt (by omega) (by omega))
    have i2 := inv_set i1 t (b.used t) (mkPtr k 0 up) (by rw [used_set, g5, if_pos rfl]; omega)
      (mkPtr_lt hk (by omega) hup)
    have hne : ¬ (s = t ∧ i = b.used t) := by rintro ⟨rfl, rfl⟩; omega
    refine ⟨i2, ⟨fun s' j hj hT => ?_, fun s' => (hu s').1⟩,
      Or.inr ⟨b.used t, rfl, Nat.le_refl _, ?_, ?_⟩, by omega, ?_, fun j hj => ?_⟩
    · rw [word_set, if_neg (by rintro ⟨rfl, rfl⟩; omega), word_set, if_neg hT, g3]
    · rw [word_set, if_neg hne, word_set, if_pos ⟨rfl, rfl⟩]
    · rw [word_set, if_pos ⟨rfl, rfl⟩]
    · rw [used_set, used_set, g5, if_pos rfl]; omega
    · rw [word_set, if_neg (by omega), word_set, if_neg (by rintro ⟨rfl, rfl⟩; omega), g3]
      exact h.zero t _ (by omega)

/-! ### Lists of bytes and structs -/

/-- Words for the bytes of a list. -/
def nw (data : Bytes) : Nat := (data.length + 7) / 8

/-- The pointer at word `i` of segment `s` leads to a list with these bytes. -/
def Lst (b : Bld) (f : Nat → Nat) (s i : Nat) (data : Bytes) : Prop :=
  ∃ s' p, Res b f s i s' p 1 (8 * data.length + 2) ∧ f s' ≤ p ∧ p + nw data ≤ b.used s' ∧
    ∀ j < nw data, b.word s' (p + j) = (chunks (nw data) data).getD j 0

/-- The pointer at word `i` of segment `s` leads to a struct at this place. -/
def Str (b : Bld) (f : Nat → Nat) (s i s' p d c : Nat) : Prop :=
  Res b f s i s' p 0 (d + 2 ^ 16 * c) ∧ f s' ≤ p ∧ p + (d + c) ≤ b.used s'

theorem Lst.ext {b b' : Bld} {f : Nat → Nat} {T : Nat → Nat → Prop} {s i : Nat} {data : Bytes} (h : Lst b f s i data)
    (he : Ext b b' T) (hi : i < b.used s) (hT : ¬ T s i) (hT' : ∀ s' q, T s' q → q < f s') : Lst b' f s i data := by
  obtain ⟨s', p, h1, h2, h3, h4⟩ := h
  refine ⟨s', p, h1.ext he hi (by omega) hT (fun q _ h5 h6 => ?_), h2, Nat.le_trans h3 (he.used s'), fun j hj => ?_⟩
  · have := hT' _ _ h6; omega
  · rw [he.word s' _ (by omega) (fun h6 => by have := hT' _ _ h6; omega)]
    exact h4 j hj

theorem Str.ext {b b' : Bld} {f : Nat → Nat} {T : Nat → Nat → Prop} {s i s' p d c : Nat} (h : Str b f s i s' p d c)
    (he : Ext b b' T) (hi : i < b.used s) (hT : ¬ T s i) (hT' : ∀ q, q + 1 = p → ¬ T s' q) : Str b' f s i s' p d c := by
  obtain ⟨h1, h2, h3⟩ := h
  exact ⟨h1.ext he hi (by omega) hT (fun q hq _ h6 => hT' q hq.symm h6), h2, Nat.le_trans h3 (he.used s')⟩

theorem getD_chunks_lt (n : Nat) (bs : Bytes) (j : Nat) : (chunks n bs).getD j 0 < 2 ^ 64 := by
  rw [List.getD_eq_getElem?_getD]
  cases h : (chunks n bs)[j]? with
  | none => simp
  | some w => exact chunks_lt n bs w (List.mem_of_getElem? h)

theorem initBytes_spec (pol : Policy) {b : Bld} {M K : Nat} (h : Inv b M K) (s i : Nat) (data : Bytes)
    (hi : i < b.used s) (hd : data.length < 2 ^ 29) (hM : M + nw data + 1 < 2 ^ 29) (hK : K < 2 ^ 32) :
    let r := b.initBytes pol s i data
    Inv r (M + nw data + 1) (K + 1) ∧ Ext b r (fun s' j => s' = s ∧ j = i) ∧ Lst r b.used s i data := by
  have hup : (8 * data.length + 2) % 2 ^ 32 = 8 * data.length + 2 := Nat.mod_eq_of_lt (by omega)
  unfold initBytes
  rw [hup]
  obtain ⟨h1, h2, h3, h4, h5, h6⟩ := allocate_spec pol h s i (nw data) 1 (8 * data.length + 2) hi hM hK (by omega)
    (by omega)
  unfold nw at *
  generalize b.allocate pol s i ((data.length + 7) / 8) 1 (8 * data.length + 2) = r at *
  obtain ⟨b', s', p⟩ := r
  dsimp only at *
  have hw : ∀ t j, (b'.fill s' p data).word t j = if t = s' ∧ p ≤ j ∧ j < p + (data.length + 7) / 8 then
      (chunks ((data.length + 7) / 8) data).getD (j - p) 0 else b'.word t j := fun _ _ => rfl
  have hus : ∀ t, (b'.fill s' p data).used t = b'.used t := fun _ => rfl
  have he : Ext b (b'.fill s' p data) (fun s' j => s' = s ∧ j = i) := by
    refine ⟨fun t j hj hT => ?_, h2.used⟩
    rw [hw, if_neg (by rintro ⟨rfl, h7, _⟩; omega)]
    exact h2.word t j hj hT
  refine ⟨⟨h1.used, h1.segs, h1.pos, fun t j hj => ?_, fun t j => ?_⟩, he, s', p, ?_, h4, h5, fun j hj => ?_⟩
  · rw [hus] at hj
    rw [hw, if_neg (by rintro ⟨rfl, _, _⟩; omega)]
    exact h1.zero t j hj
  · rw [hw]
    split
    · exact getD_chunks_lt _ _ _
    · exact h1.word t j
  · rcases h3 with ⟨g1, g2, g3⟩ | ⟨q, g1, g2, g3, g4⟩
    · refine Or.inl ⟨g1, g2, ?_⟩
      rw [hw, if_neg (by rintro ⟨rfl, _, _⟩; omega), g3]
    · refine Or.inr ⟨q, g1, g2, ?_, ?_⟩
      · rw [hw, if_neg (by rintro ⟨rfl, _, _⟩; omega), g3]
      · rw [hw, if_neg (by rintro ⟨_, _, _⟩; omega), g4]
  · unfold nw
    rw [hw, if_pos ⟨rfl, by omega, by unfold nw at hj; omega⟩, Nat.add_sub_cancel_left]

theorem initStruct_spec (pol : Policy) {b : Bld} {M K : Nat} (h : Inv b M K) (s i d c : Nat)
    (hi : i < b.used s) (hd : d < 2 ^ 16) (hc : c < 2 ^ 16) (hM : M + (d + c) + 1 < 2 ^ 29) (hK : K < 2 ^ 32) :
    let r := b.initStruct pol s i d c
    Inv r.1 (M + (d + c) + 1) (K + 1) ∧ Ext b r.1 (fun s' j => s' = s ∧ j = i) ∧
    Str r.1 b.used s i r.2.1 r.2.2 d c ∧ ∀ j < d + c, r.1.word r.2.1 (r.2.2 + j) = 0 := by
  obtain ⟨h1, h2, h3, h4, h5, h6⟩ := allocate_spec pol h s i (d + c) 0 (d + 2 ^ 16 * c) hi hM hK (by omega) (by omega)
  exact ⟨h1, h2, ⟨h3, h4, h5⟩, h6⟩

end Bld

/-! ## Reading what was built -/

/-- The reader gives `v` and uses up at most `c` words of the traversal limit. -/
def Cost {α : Type} (x : R α) (v : α) (c : Nat) : Prop := ∀ l, c ≤ l → ∃ l', x l = .ok (v, l') ∧ l ≤ l' + c

theorem Cost.bind {α β : Type} {x : R α} {f : α → R β} {v : α} {w : β} {c c' : Nat} (h : Cost x v c)
    (h' : Cost (f v) w c') : Cost (x >>= f) w (c + c') := by
  intro l hl
  obtain ⟨l1, h1, h2⟩ := h l (by omega)
  obtain ⟨l2, h3, h4⟩ := h' l1 (by omega)
  refine ⟨l2, ?_, by omega⟩
  show (x l >>= fun p => f p.1 p.2) = _
  rw [h1]
  exact h3

theorem Cost.pure {α : Type} (v : α) : Cost (Pure.pure v : R α) v 0 := fun l _ => ⟨l, rfl, by omega⟩

theorem Cost.mono {α : Type} {x : R α} {v : α} {c c' : Nat} (h : Cost x v c) (hc : c ≤ c') : Cost x v c' := by
  intro l hl
  obtain ⟨l', h1, h2⟩ := h l (by omega)
  exact ⟨l', h1, by omega⟩

theorem Cost.canRead (n : Nat) : Cost (Codec.canRead n) () n := by
  intro l hl
  refine ⟨l - n, ?_, by omega⟩
  unfold Codec.canRead
  rw [if_neg (by omega)]

namespace Bld

theorem out_getElem? (b : Bld) (s : Nat) (h : 0 < b.used s) :
    b.out[s]? = some ((List.range (b.used s)).map (b.word s)) := by
  have hs : s < b.segs.length := by
    unfold used at h
    rw [List.getD_eq_getElem?_getD] at h
    by_cases hs : s < b.segs.length
    · exact hs
    · rw [List.getElem?_eq_none (by omega)] at h; simp at h
  unfold out
  rw [List.getElem?_map, List.getElem?_range hs]
  rfl

theorem lt_of_used {b : Bld} {s : Nat} (h : 0 < b.used s) : s < b.segs.length := by
  unfold used at h
  rw [List.getD_eq_getElem?_getD] at h
  by_cases hs : s < b.segs.length
  · exact hs
  · rw [List.getElem?_eq_none (by omega)] at h; simp at h

theorem cost_word (b : Bld) (s i : Nat) (h : i < b.used s) : Cost (wordAt b.out s i) (b.word s i) 0 := by
  unfold wordAt
  rw [out_getElem? b s (by omega)]
  dsimp only
  rw [List.getElem?_map, List.getElem?_range h]
  exact Cost.pure _

theorem cost_segLen (b : Bld) (s : Nat) (h : 0 < b.used s) : Cost (segLen b.out s) (b.used s) 0 := by
  unfold segLen
  rw [out_getElem? b s h]
  simp only [List.length_map, List.length_range]
  exact Cost.pure _

theorem cost_bounds (b : Bld) (s p n : Nat) (h0 : 0 < b.used s) (h : p + n ≤ b.used s) :
    Cost (boundsCheck b.out s p n) () n := by
  refine ((cost_segLen b s h0).bind (c' := n) ?_).mono (by omega)
  rw [if_pos h]
  exact Cost.canRead n

theorem cost_words (b : Bld) (s p n : Nat) (h0 : 0 < b.used s) (h : p + n ≤ b.used s) :
    Cost (wordsAt b.out s p n) ((List.range n).map fun j => b.word s (p + j)) 0 := by
  unfold wordsAt
  rw [out_getElem? b s h0]
  dsimp only
  rw [if_pos (by simpa using h)]
  have : (List.drop p ((List.range (b.used s)).map (b.word s))).take n = (List.range n).map fun j => b.word s (p + j) := by
    apply List.ext_getElem
    · simp; omega
    · intro j h1 h2
      simp
  rw [this]
  exact Cost.pure _

theorem kind_mkPtr {k o u : Nat} (hk : k < 4) : kind (mkPtr k o u) = k := by unfold kind mkPtr; omega
theorem lo_mkPtr {k o u : Nat} (hk : k < 4) (ho : o < 2 ^ 29) : lo (mkPtr k o u) = k + 4 * o := by
  unfold lo mkPtr; omega
theorem hi_mkPtr {k o u : Nat} (hk : k < 4) (ho : o < 2 ^ 29) (hu : u < 2 ^ 32) : hi (mkPtr k o u) = u := by
  unfold hi mkPtr; omega
theorem off_mkPtr {k o u : Nat} (hk : k < 4) (ho : o < 2 ^ 29) : off (mkPtr k o u) = o := by
  unfold off
  rw [lo_mkPtr hk ho, show (k + 4 * o) / 4 = o by omega, if_pos ho]
theorem kind_mkFar (q s : Nat) : kind (mkFar q s) = 2 := by unfold kind mkFar; omega
theorem lo_mkFar {q s : Nat} (hq : q < 2 ^ 29) : lo (mkFar q s) = 2 + 8 * q := by unfold lo mkFar; omega
theorem farPos_mkFar {q s : Nat} (hq : q < 2 ^ 29) : farPos (mkFar q s) = q := by
  unfold farPos; rw [lo_mkFar hq]; omega
theorem farDouble_mkFar {q s : Nat} (hq : q < 2 ^ 29) : farDouble (mkFar q s) = false := by
  unfold farDouble; rw [lo_mkFar hq, show (2 + 8 * q) / 4 % 2 = 0 by omega]; rfl
theorem farSeg_mkFar {q s : Nat} (hq : q < 2 ^ 29) (hs : s < 2 ^ 32) : farSeg (mkFar q s) = s := by
  unfold farSeg hi mkFar; omega

theorem cost_target (b : Bld) (s i p k up : Nat) (h0 : 0 < b.used s) (hk : k < 4) (hip : i < p) (hp : p ≤ b.used s)
    (ho : p < 2 ^ 29) : Cost (target b.out s i (mkPtr k (p - i - 1) up)) p 0 := by
  refine ((cost_segLen b s h0).bind (c' := 0) ?_).mono (by omega)
  rw [off_mkPtr hk (by omega)]
  dsimp only
  have ht : (i : Int) + 1 + ((p - i - 1 : Nat) : Int) = p := by omega
  rw [ht, if_pos ⟨by omega, by omega⟩]
  exact Cost.pure _

theorem cost_followFars {b : Bld} {M K : Nat} (hb : Inv b M K) (hM : M < 2 ^ 29) (hK : K < 2 ^ 32) {f : Nat → Nat}
    {s i s' p k up : Nat} (h : Res b f s i s' p k up) (hi : i < b.used s) (hp : p ≤ b.used s') (hk : k < 2) :
    ∃ o < 2 ^ 29, Cost (followFars b.out s i (b.word s i)) (s', p, mkPtr k o up) 1 := by
  have hu := hb.used s'
  unfold followFars
  rcases h with ⟨rfl, h2, h3⟩ | ⟨q, rfl, h2, h3, h4⟩
  · refine ⟨p - i - 1, by omega, ?_⟩
    rw [h3, kind_mkPtr (by omega), if_neg (by omega)]
    refine ((cost_target b s' i p k up (by omega) (by omega) h2 hp (by omega)).bind (c' := 0) ?_).mono (by omega)
    exact Cost.pure _
  · refine ⟨0, by omega, ?_⟩
    have hs := lt_of_used (b := b) (s := s') (by omega)
    have hsegs := hb.segs
    rw [h3, kind_mkFar, if_pos rfl, farPos_mkFar (by omega), farDouble_mkFar (by omega), farSeg_mkFar (by omega) (by omega)]
    refine ((cost_segLen b s' (by omega)).bind (c' := 1) ?_).mono (by omega)
    refine ((cost_bounds b s' q 1 (by omega) (by omega)).bind (c' := 0) ?_)
    refine ((cost_word b s' q (by omega)).bind (c' := 0) ?_).mono (by omega)
    rw [if_neg (by simp), h4]
    have := cost_target b s' q (q + 1) k up (by omega) (by omega) (by omega) hp (by omega)
    rw [show q + 1 - q - 1 = 0 by omega] at this
    refine (this.bind (c' := 0) ?_).mono (by omega)
    exact Cost.pure _

theorem Res.pos {b : Bld} {f : Nat → Nat} {s i s' p k up : Nat} (h : Res b f s i s' p k up) : 0 < p := by
  rcases h with ⟨_, _, _⟩ | ⟨q, rfl, _⟩ <;> omega

theorem Res.ne_zero {b : Bld} {f : Nat → Nat} {s i s' p k up : Nat} (h : Res b f s i s' p k up) (hup : up ≠ 0) :
    b.word s i ≠ 0 := by
  rcases h with ⟨_, _, h⟩ | ⟨q, _, _, h, _⟩
  · rw [h]; unfold mkPtr; omega
  · rw [h]; unfold mkFar; omega

/-- The bytes of a list that was written. -/
theorem list_bytes {b : Bld} {s p : Nat} {data : Bytes}
    (h : ∀ j < nw data, b.word s (p + j) = (chunks (nw data) data).getD j 0) :
    bytesOf ((List.range (nw data)).map fun j => b.word s (p + j)) =
      data ++ List.replicate (8 * nw data - data.length) 0 := by
  have : (List.range (nw data)).map (fun j => b.word s (p + j)) = chunks (nw data) data := by
    apply List.ext_getElem
    · simp [length_chunks]
    · intro j h1 h2
      simp only [List.getElem_map, List.getElem_range]
      rw [h j (by simpa using h1)]
      simp [List.getD_eq_getElem?_getD, List.getElem?_eq_getElem h2]
  rw [this, bytesOf_chunks, List.take_of_length_le (by unfold nw; omega)]

/-- The common part of reading a list of bytes. -/
theorem cost_list {b : Bld} {M K N : Nat} (hb : Inv b M K) (hM : M < 2 ^ 29) (hK : K < 2 ^ 32) (hN : ∀ s, b.used s ≤ N)
    {f : Nat → Nat} {s i : Nat} {data : Bytes} (h : Lst b f s i data) (hi : i < b.used s) (hd : data.length < 2 ^ 29) :
    ∃ s' p o, Cost (followFars b.out s i (b.word s i)) (s', p, mkPtr 1 o (8 * data.length + 2)) 1 ∧
      b.word s i ≠ 0 ∧ elemSize (mkPtr 1 o (8 * data.length + 2)) = 2 ∧
      elemCount (mkPtr 1 o (8 * data.length + 2)) = data.length ∧
      Cost (boundsCheck b.out s' p (nw data)) () N ∧
      ∃ ws, Cost (wordsAt b.out s' p (nw data)) ws 0 ∧
        bytesOf ws = data ++ List.replicate (8 * nw data - data.length) 0 := by
  obtain ⟨s', p, h1, h2, h3, h4⟩ := h
  have hu := hb.used s'
  have hn := hN s'
  have hp := h1.pos
  obtain ⟨o, ho, h5⟩ := cost_followFars hb hM hK h1 hi (by omega) (by omega)
  refine ⟨s', p, o, h5, h1.ne_zero (by omega), ?_, ?_, (cost_bounds b s' p (nw data) (by omega) h3).mono (by omega),
    _, cost_words b s' p (nw data) (by omega) h3, list_bytes h4⟩
  · unfold elemSize; rw [hi_mkPtr (by omega) ho (by omega)]; omega
  · unfold elemCount; rw [hi_mkPtr (by omega) ho (by omega)]; omega

theorem cost_getData {b : Bld} {M K N : Nat} (hb : Inv b M K) (hM : M < 2 ^ 29) (hK : K < 2 ^ 32)
    (hN : ∀ s, b.used s ≤ N) {f : Nat → Nat}
    {s i : Nat} {data : Bytes} (h : Lst b f s i data) (hi : i < b.used s) (hd : data.length < 2 ^ 29) :
    Cost (getData b.out (some (s, i))) data (N + 1) := by
  obtain ⟨s', p, o, h5, h0, e1, e2, h6, ws, h7, h8⟩ := cost_list hb hM hK hN h hi hd
  refine ((cost_word b s i hi).bind (c' := N + 1) ?_).mono (by omega)
  dsimp only
  rw [if_neg h0]
  refine (h5.bind (c' := N) ?_).mono (by omega)
  dsimp only
  rw [kind_mkPtr (by omega), e1, e2, if_neg (by simp), if_neg (by simp)]
  refine (h6.bind (c' := 0) ?_).mono (by omega)
  refine (h7.bind (c' := 0) ?_).mono (by omega)
  rw [h8, List.take_left]
  exact Cost.pure _

theorem fromUTF8_toUTF8 (c : String) : String.fromUTF8? c.toUTF8 = some c := by
  unfold String.fromUTF8?
  rw [dif_pos (by simpa using c.isValidUTF8)]
  rfl

theorem cost_getText {b : Bld} {M K N : Nat} (hb : Inv b M K) (hM : M < 2 ^ 29) (hK : K < 2 ^ 32)
    (hN : ∀ s, b.used s ≤ N) {f : Nat → Nat}
    {s i : Nat} {c : String} (h : Lst b f s i (utf8 c ++ [0])) (hi : i < b.used s)
    (hd : (utf8 c ++ [0]).length < 2 ^ 29) :
    Cost (getText b.out (some (s, i))) c (N + 1) := by
  obtain ⟨s', p, o, h5, h0, e1, e2, h6, ws, h7, h8⟩ := cost_list hb hM hK hN h hi hd
  refine ((cost_word b s i hi).bind (c' := N + 1) ?_).mono (by omega)
  dsimp only
  rw [if_neg h0]
  refine (h5.bind (c' := N) ?_).mono (by omega)
  dsimp only
  rw [kind_mkPtr (by omega), e1, e2, if_neg (by simp), if_neg (by simp)]
  refine (h6.bind (c' := 0) ?_).mono (by omega)
  refine (h7.bind (c' := 0) ?_).mono (by omega)
  rw [h8, List.take_left, if_neg (by simp)]
  have e : (⟨(utf8 c ++ [0]).dropLast.toArray⟩ : ByteArray) = c.toUTF8 := by
    simp [utf8]
  rw [e, fromUTF8_toUTF8]
  exact Cost.pure _

theorem strided_one (data r : Bytes) : strided 1 data.length (data ++ r) = Pure.pure data := by
  unfold strided
  rw [if_pos (by rw [List.length_append]; omega)]
  congr 1
  apply List.ext_getElem
  · simp
  · intro j h1 h2
    simp [List.getD_eq_getElem?_getD, List.getElem?_append_left h2, List.getElem?_eq_getElem h2]

theorem list_words (data : Bytes) : (data.length * elemBits 2 + 63) / 64 = nw data := by
  have : elemBits 2 = 8 := rfl
  rw [this]
  unfold nw
  omega

theorem cost_getTopics {b : Bld} {M K N : Nat} (hb : Inv b M K) (hM : M < 2 ^ 29) (hK : K < 2 ^ 32)
    (hN : ∀ s, b.used s ≤ N) {f : Nat → Nat}
    {s i : Nat} {data : Bytes} (h : Lst b f s i data) (hi : i < b.used s) (hd : data.length < 2 ^ 29) :
    Cost (getTopics b.out (some (s, i))) data (N + 1) := by
  obtain ⟨s', p, o, h5, h0, e1, e2, h6, ws, h7, h8⟩ := cost_list hb hM hK hN h hi hd
  refine ((cost_word b s i hi).bind (c' := N + 1) ?_).mono (by omega)
  dsimp only
  rw [if_neg h0]
  refine (h5.bind (c' := N) ?_).mono (by omega)
  dsimp only
  rw [kind_mkPtr (by omega), e1, if_neg (by simp), if_neg (by simp)]
  unfold plainTopics
  have e4 : elemBytes 2 = some 1 := rfl
  rw [e1, e2, list_words data, e4]
  refine (h6.bind (c' := 0) ?_).mono (by omega)
  rw [if_neg (by simp)]
  refine (h7.bind (c' := 0) ?_).mono (by omega)
  rw [h8, strided_one]
  exact Cost.pure _

theorem cost_readStruct {b : Bld} {M K : Nat} (hb : Inv b M K) (hM : M < 2 ^ 29) (hK : K < 2 ^ 32)
    {f : Nat → Nat} {s i s' p d c : Nat} (h : Str b f s i s' p d c) (hi : i < b.used s) (hd : d < 2 ^ 16)
    (hc : c < 2 ^ 16) (hdc : d + c ≠ 0) :
    Cost (readStruct b.out s i (b.word s i)) ⟨s', p, d, c⟩ (1 + (d + c)) := by
  obtain ⟨h1, h2, h3⟩ := h
  have hu := hb.used s'
  have hp := h1.pos
  unfold readStruct
  rw [if_neg (h1.ne_zero (by omega))]
  obtain ⟨o, ho, h5⟩ := cost_followFars hb hM hK h1 hi (by omega) (by omega)
  refine (h5.bind (c' := d + c) ?_)
  dsimp only
  have e1 : dataWords (mkPtr 0 o (d + 2 ^ 16 * c)) = d := by
    unfold dataWords; rw [hi_mkPtr (by omega) ho (by omega)]; omega
  have e2 : ptrCount (mkPtr 0 o (d + 2 ^ 16 * c)) = c := by
    unfold ptrCount; rw [hi_mkPtr (by omega) ho (by omega)]; omega
  rw [kind_mkPtr (by omega), e1, e2, if_neg (by simp)]
  refine ((cost_bounds b s' p (d + c) (by omega) h3).bind (c' := 0) ?_)
  exact Cost.pure _

theorem cost_getStruct {b : Bld} {M K : Nat} (hb : Inv b M K) (hM : M < 2 ^ 29) (hK : K < 2 ^ 32)
    {f : Nat → Nat} {s i s' p d c : Nat} (h : Str b f s i s' p d c) (hi : i < b.used s) (hd : d < 2 ^ 16)
    (hc : c < 2 ^ 16) (hdc : d + c ≠ 0) :
    Cost (getStruct b.out (some (s, i))) ⟨s', p, d, c⟩ (1 + (d + c)) := by
  refine ((cost_word b s i hi).bind (c' := 1 + (d + c)) ?_).mono (by omega)
  exact cost_readStruct hb hM hK h hi hd hc hdc

theorem cost_word0 {b : Bld} {s p d c : Nat} (hd : 0 < d) (h : p < b.used s) :
    Cost (SR.word0 b.out ⟨s, p, d, c⟩) (b.word s p) 0 := by
  unfold SR.word0
  rw [if_pos hd]
  exact cost_word b s p h

/-! ### Whole messages -/

theorem Ext.fresh {b b1 b2 : Bld} {T T' : Nat → Nat → Prop} (h : Ext b b1 T) (h' : Ext b1 b2 T')
    (hT : ∀ s j, T' s j → b.used s ≤ j) : Ext b b2 T :=
  ⟨fun s j hj hn => ((h.trans h').word s j hj (by
      rintro (h1 | h1)
      · exact hn h1
      · have := hT s j h1; omega)), (h.trans h').used⟩

/-- A message with root struct at word `i` of segment `s`, with this tag. -/
structure Root (b : Bld) (M K t s i : Nat) : Prop where
  inv : Inv b M K
  str : Str b (start fun _ => 0).used 0 0 s i 1 1
  tag : b.word s i = t
  zero : 0 < b.used 0

theorem start_used (pol : Policy) (s : Nat) : (start pol).used s = if s = 0 then 1 else 0 := by
  unfold start used
  cases s <;> simp

theorem inv_start (pol : Policy) : Inv (start pol) 1 1 := by
  refine ⟨fun s => ?_, Nat.le_refl _, Nat.one_pos, fun _ _ _ => rfl, fun _ _ => by show 0 < 2 ^ 64; omega⟩
  rw [start_used]
  split <;> omega

theorem root_start (pol : Policy) (t : Nat) (ht : t < 2 ^ 64) :
    let r := (start pol).initStruct pol 0 0 1 1
    Root (r.1.set r.2.1 r.2.2 t) 4 2 t r.2.1 r.2.2 ∧ r.2.2 + 2 ≤ (r.1.set r.2.1 r.2.2 t).used r.2.1 := by
  obtain ⟨h1, h2, h3, h4⟩ := initStruct_spec pol (inv_start pol) 0 0 1 1 (by rw [start_used]; simp) (by omega) (by omega)
    (by omega) (by omega)
  have hus : (start fun _ => 0).used = (start pol).used := by
    funext s; rw [start_used, start_used]
  dsimp only
  generalize (start pol).initStruct pol 0 0 1 1 = r at *
  obtain ⟨b, s, i⟩ := r
  dsimp only at *
  have hi : i + 2 ≤ b.used s := h3.2.2
  have hp : 0 < i := h3.1.pos
  refine ⟨⟨inv_set h1 s i t (by omega) ht, ?_, ?_, ?_⟩, hi⟩
  · rw [hus]
    refine h3.ext (ext_set b s i t) ?_ (by omega) (fun q hq => by omega)
    have := h2.used 0
    rw [start_used] at this
    simp at this
    omega
  · rw [word_set, if_pos ⟨rfl, rfl⟩]
  · have := h2.used 0
    rw [start_used] at this
    simp at this
    exact this

/-- Later allocations leave the root as it is. -/
theorem Root.ext {b b' : Bld} {M K M' K' t s i : Nat} (h : Root b M K t s i) (hb : Inv b' M' K')
    (he : Ext b b' (fun s' j => s' = s ∧ j = i + 1)) : Root b' M' K' t s i := by
  have hp : 0 < i := h.str.1.pos
  have hu := h.str.2.2
  refine ⟨hb, h.str.ext he h.zero (by omega) (by omega), ?_, Nat.lt_of_lt_of_le h.zero (he.used 0)⟩
  rw [he.word s i (by omega) (by omega)]
  exact h.tag

theorem Root.read {b : Bld} {M K t s i c : Nat} {m : Msg} (h : Root b M K t s i) (hM : M < 2 ^ 29) (hK : K < 2 ^ 32)
    (hb : Cost (readBody b.out t (some (s, i + 1))) m c) : Cost (readMsg b.out) m (4 + c) := by
  have hu := h.str.2.2
  refine ((cost_bounds b 0 0 1 h.zero (by have := h.zero; omega)).bind (c' := 3 + c) ?_).mono (by omega)
  refine ((cost_word b 0 0 h.zero).bind (c' := 3 + c) ?_).mono (by omega)
  refine ((cost_readStruct h.inv hM hK h.str h.zero (by omega) (by omega) (by omega)).bind (c' := c) ?_).mono (by omega)
  refine ((cost_word0 (by omega) (by omega)).bind (c' := c) ?_).mono (by omega)
  rw [h.tag]
  exact hb

/-- The state while the content struct at word `p` of segment `q` is filled: it is reached by the pointer after the tag
of the root. -/
structure Content (b0 b : Bld) (M K t s i q p d c : Nat) : Prop where
  inv : Inv b M K
  ext : Ext b0 b (fun s' j => s' = s ∧ j = i + 1)
  str : Str b b0.used s (i + 1) q p d c

theorem Content.start (pol : Policy) {b : Bld} {M K t s i d c : Nat} (h : Root b M K t s i)
    (hd : d < 2 ^ 16) (hc : c < 2 ^ 16) (hM : M + (d + c) + 1 < 2 ^ 29) (hK : K < 2 ^ 32) :
    let r := b.initStruct pol s (i + 1) d c
    Content b r.1 (M + (d + c) + 1) (K + 1) t s i r.2.1 r.2.2 d c := by
  have hu := h.str.2.2
  obtain ⟨h1, h2, h3, _⟩ := initStruct_spec pol h.inv s (i + 1) d c (by omega) hd hc hM hK
  exact ⟨h1, h2, h3⟩

/-- Changes within the content struct. -/
theorem Content.next {b0 b b' : Bld} {M0 K0 M K M' K' t s i q p d c k : Nat} (h : Content b0 b M K t s i q p d c)
    (h0 : Root b0 M0 K0 t s i) (hb : Inv b' M' K') (he : Ext b b' (fun s' j => s' = q ∧ j = p + k)) :
    Content b0 b' M' K' t s i q p d c := by
  have hu := h0.str.2.2
  have hp := h.str.2.1
  refine ⟨hb, h.ext.fresh he (by rintro s' j ⟨rfl, rfl⟩; omega), h.str.ext he ?_ ?_ (by omega)⟩
  · have := h.ext.used s; omega
  · rintro ⟨rfl, h1⟩; omega

theorem Content.root {b0 b : Bld} {M0 K0 M K t s i q p d c : Nat} (h : Content b0 b M K t s i q p d c)
    (h0 : Root b0 M0 K0 t s i) : Root b M K t s i := h0.ext h.inv h.ext

theorem Content.read {b0 b : Bld} {M0 K0 M K t s i q p d c : Nat} (h : Content b0 b M K t s i q p d c)
    (h0 : Root b0 M0 K0 t s i) (hM : M < 2 ^ 29) (hK : K < 2 ^ 32) (hd : d < 2 ^ 16) (hc : c < 2 ^ 16) (hdc : d + c ≠ 0) :
    Cost (getStruct b.out (some (s, i + 1))) ⟨q, p, d, c⟩ (1 + (d + c)) := by
  have hu := h0.str.2.2
  have := h.ext.used s
  exact cost_getStruct h.inv hM hK h.str (by omega) hd hc hdc

theorem Content.setWord {b0 b : Bld} {M0 K0 M K t s i q p d c : Nat} (h : Content b0 b M K t s i q p d c)
    (h0 : Root b0 M0 K0 t s i) (hd : 0 < d) (w : Nat) (hw : w < 2 ^ 64) :
    Content b0 (b.set q p w) M K t s i q p d c :=
  h.next (k := 0) h0 (inv_set h.inv q p w (by have := h.str.2.2; omega) hw) (ext_set b q p w)

theorem Content.setBytes (pol : Policy) {b0 b : Bld} {M0 K0 M K t s i q p d c k : Nat}
    (h : Content b0 b M K t s i q p d c)
    (h0 : Root b0 M0 K0 t s i) (data : Bytes) (hk : k < d + c) (hd : data.length < 2 ^ 29)
    (hM : M + nw data + 1 < 2 ^ 29) (hK : K < 2 ^ 32) :
    Content b0 (b.initBytes pol q (p + k) data) (M + nw data + 1) (K + 1) t s i q p d c ∧
    Ext b (b.initBytes pol q (p + k) data) (fun s' j => s' = q ∧ j = p + k) ∧
    Lst (b.initBytes pol q (p + k) data) b.used q (p + k) data := by
  obtain ⟨h1, h2, h3⟩ := initBytes_spec pol h.inv q (p + k) data (by have := h.str.2.2; omega) hd hM hK
  exact ⟨h.next h0 h1 h2, h2, h3⟩

/-- The fields of a message that are lists have fewer than `2 ^ 29` elements; a text has a byte more. -/
def _root_.Verif.Codec.Fits : Msg → Prop
  | .authKey k _ g => k.length < 2 ^ 29 ∧ g.length < 2 ^ 29
  | .authPermit _ => True
  | .authResponse _ c => (utf8 c).length + 1 < 2 ^ 29
  | .direct r m => r.length < 2 ^ 29 ∧ m.length < 2 ^ 29
  | .broadcast ts m => ts.length < 2 ^ 29 ∧ m.length < 2 ^ 29
  | .subscribe ts => ts.length < 2 ^ 29
  | .unsubscribe ts => ts.length < 2 ^ 29
  | .userSync d => d.length < 2 ^ 29
  | .topicSync d => d.length < 2 ^ 29

/-- A well-formed message in memory that reads as `m`. -/
def Good (b : Bld) (m : Msg) : Prop :=
  ∃ M K, Inv b M K ∧ M < 2 ^ 29 ∧ K < 512 ∧ 0 < b.used 0 ∧ ∀ N, (∀ s, b.used s ≤ N) → Cost (readMsg b.out) m (2 * N + 10)

theorem Root.good {b : Bld} {M K t s i : Nat} {m : Msg} (h : Root b M K t s i) (hM : M < 2 ^ 29) (hK : K < 512)
    (hr : ∀ N, (∀ s, b.used s ≤ N) → Cost (readBody b.out t (some (s, i + 1))) m (2 * N + 6)) : Good b m := by
  refine ⟨M, K, h.inv, hM, hK, h.zero, fun N hN => ?_⟩
  exact (h.read hM (by omega) (hr N hN)).mono (by omega)

/-- A message whose content is a list. -/
theorem good_list (pol : Policy) (t : Nat) (ht : t < 2 ^ 64) (data : Bytes) (hd : data.length < 2 ^ 29) (m : Msg) :
    let r := (start pol).initStruct pol 0 0 1 1
    let b := (r.1.set r.2.1 r.2.2 t).initBytes pol r.2.1 (r.2.2 + 1) data
    ((∀ N, Cost (getData b.out (some (r.2.1, r.2.2 + 1))) data N →
      Cost (readBody b.out t (some (r.2.1, r.2.2 + 1))) m N) ∨
     (∀ N, Cost (getTopics b.out (some (r.2.1, r.2.2 + 1))) data N →
      Cost (readBody b.out t (some (r.2.1, r.2.2 + 1))) m N)) → Good b m := by
  obtain ⟨h0, h1⟩ := root_start pol t ht
  dsimp only
  generalize (start pol).initStruct pol 0 0 1 1 = r at *
  obtain ⟨b0, s, i⟩ := r
  dsimp only at *
  intro hread
  have hn : nw data < 2 ^ 27 := by unfold nw; omega
  obtain ⟨h2, h3, h4⟩ := initBytes_spec pol h0.inv s (i + 1) data (by omega) hd (by omega) (by omega)
  have hu := h3.used s
  refine (h0.ext h2 h3).good (by omega) (by omega) fun N hN => ?_
  rcases hread with hread | hread
  · exact hread _ ((cost_getData h2 (by omega) (by omega) hN h4 (by omega) hd).mono (by omega))
  · exact hread _ ((cost_getTopics h2 (by omega) (by omega) hN h4 (by omega) hd).mono (by omega))

theorem Cost.map {α β : Type} {x : R α} {v : α} {c : Nat} (h : Cost x v c) (f : α → β) :
    Cost (x >>= fun a => Pure.pure (f a)) (f v) c := (h.bind (Cost.pure (f v))).mono (by omega)

theorem build_good (pol : Policy) (m : Msg) (hm : Fits m) : Good (build pol m) m := by
  cases m with
  | subscribe ts => exact good_list pol 5 (by omega) ts hm _ (Or.inr fun N h => Cost.map h _)
  | unsubscribe ts => exact good_list pol 6 (by omega) ts hm _ (Or.inr fun N h => Cost.map h _)
  | userSync d => exact good_list pol 7 (by omega) d hm _ (Or.inl fun N h => Cost.map h _)
  | topicSync d => exact good_list pol 8 (by omega) d hm _ (Or.inl fun N h => Cost.map h _)
  | authPermit v =>
    obtain ⟨h0, h1⟩ := root_start pol 1 (by omega)
    unfold build
    dsimp only
    generalize (start pol).initStruct pol 0 0 1 1 = r at *
    obtain ⟨b0, s, i⟩ := r
    dsimp only at *
    have c1 := Content.start pol (d := 1) (c := 0) h0 (by omega) (by omega) (by omega) (by omega)
    dsimp only at c1
    generalize (b0.set s i 1).initStruct pol s (i + 1) 1 0 = r at *
    obtain ⟨b1, q, p⟩ := r
    dsimp only at *
    have c2 := c1.setWord h0 (by omega) v.toNat v.toNat_lt
    refine (c2.root h0).good (by omega) (by omega) fun N hN => ?_
    have hu := c2.str.2.2
    refine ((c2.read h0 (by omega) (by omega) (by omega) (by omega) (by omega)).bind (c' := 0) ?_).mono (by omega)
    refine ((cost_word0 (by omega) (by omega)).bind (c' := 0) ?_).mono (by omega)
    rw [word_set, if_pos ⟨rfl, rfl⟩, UInt64.ofNat_toNat]
    exact Cost.pure _
  | authResponse v c =>
    obtain ⟨h0, h1⟩ := root_start pol 2 (by omega)
    unfold build
    dsimp only
    generalize (start pol).initStruct pol 0 0 1 1 = r at *
    obtain ⟨b0, s, i⟩ := r
    dsimp only at *
    have c1 := Content.start pol (d := 1) (c := 1) h0 (by omega) (by omega) (by omega) (by omega)
    dsimp only at c1
    generalize (b0.set s i 2).initStruct pol s (i + 1) 1 1 = r at *
    obtain ⟨b1, q, p⟩ := r
    dsimp only at *
    have hl : (utf8 c ++ [0]).length < 2 ^ 29 := by rw [List.length_append]; exact hm
    have hn : nw (utf8 c ++ [0]) < 2 ^ 27 := by unfold nw; omega
    have c2 := c1.setWord h0 (by omega) v.toNat v.toNat_lt
    have hu2 := c2.str.2.2
    obtain ⟨c3, e3, l3⟩ := c2.setBytes pol (k := 1) h0 (utf8 c ++ [0]) (by omega) hl (by omega) (by omega)
    have hu := c3.str.2.2
    refine (c3.root h0).good (by omega) (by omega) fun N hN => ?_
    refine ((c3.read h0 (by omega) (by omega) (by omega) (by omega) (by omega)).bind (c' := 2 * N + 3) ?_).mono (by omega)
    refine ((cost_word0 (by omega) (by omega)).bind (c' := 2 * N + 3) ?_).mono (by omega)
    refine ((cost_getText c3.inv (by omega) (by omega) hN l3 (by omega) hl).bind (c' := 0) ?_).mono (by omega)
    rw [e3.word q p (by omega) (by omega), word_set, if_pos ⟨rfl, rfl⟩, UInt64.ofNat_toNat]
    exact Cost.pure _
  | direct x y =>
    obtain ⟨h0, h1⟩ := root_start pol 3 (by omega)
    unfold build
    dsimp only
    generalize (start pol).initStruct pol 0 0 1 1 = r at *
    obtain ⟨b0, s, i⟩ := r
    dsimp only at *
    have c1 := Content.start pol (d := 0) (c := 2) h0 (by omega) (by omega) (by omega) (by omega)
    dsimp only at c1
    generalize (b0.set s i 3).initStruct pol s (i + 1) 0 2 = r at *
    obtain ⟨b1, q, p⟩ := r
    dsimp only at *
    obtain ⟨hx, hy⟩ := hm
    have hnx : nw x < 2 ^ 27 := by unfold nw; omega
    have hny : nw y < 2 ^ 27 := by unfold nw; omega
    have hu1 := c1.str.2.2
    obtain ⟨c2, e2, l2⟩ := c1.setBytes pol (k := 0) h0 x (by omega) hx (by omega) (by omega)
    have hu2 := c2.str.2.2
    obtain ⟨c3, e3, l3⟩ := c2.setBytes pol (k := 1) h0 y (by omega) hy (by omega) (by omega)
    have hu := c3.str.2.2
    simp only [Nat.add_zero] at c3 e3 l3 hu l2 c2 e2 hu2
    have l2' := l2.ext e3 (by omega) (by omega) (by rintro s' q' ⟨rfl, rfl⟩; omega)
    refine (c3.root h0).good (by omega) (by omega) fun N hN => ?_
    refine ((c3.read h0 (by omega) (by omega) (by omega) (by omega) (by omega)).bind (c' := 2 * N + 2) ?_).mono (by omega)
    refine ((cost_getData c3.inv (by omega) (by omega) hN l2' (by omega) hx).bind (c' := N + 1) ?_).mono (by omega)
    refine ((cost_getData c3.inv (by omega) (by omega) hN l3 (by omega) hy).bind (c' := 0) ?_).mono (by omega)
    exact Cost.pure _
  | broadcast x y =>
    obtain ⟨h0, h1⟩ := root_start pol 4 (by omega)
    unfold build
    dsimp only
    generalize (start pol).initStruct pol 0 0 1 1 = r at *
    obtain ⟨b0, s, i⟩ := r
    dsimp only at *
    have c1 := Content.start pol (d := 0) (c := 2) h0 (by omega) (by omega) (by omega) (by omega)
    dsimp only at c1
    generalize (b0.set s i 4).initStruct pol s (i + 1) 0 2 = r at *
    obtain ⟨b1, q, p⟩ := r
    dsimp only at *
    obtain ⟨hx, hy⟩ := hm
    have hnx : nw x < 2 ^ 27 := by unfold nw; omega
    have hny : nw y < 2 ^ 27 := by unfold nw; omega
    have hu1 := c1.str.2.2
    obtain ⟨c2, e2, l2⟩ := c1.setBytes pol (k := 0) h0 x (by omega) hx (by omega) (by omega)
    have hu2 := c2.str.2.2
    obtain ⟨c3, e3, l3⟩ := c2.setBytes pol (k := 1) h0 y (by omega) hy (by omega) (by omega)
    have hu := c3.str.2.2
    simp only [Nat.add_zero] at c3 e3 l3 hu l2 c2 e2 hu2
    have l2' := l2.ext e3 (by omega) (by omega) (by rintro s' q' ⟨rfl, rfl⟩; omega)
    refine (c3.root h0).good (by omega) (by omega) fun N hN => ?_
    refine ((c3.read h0 (by omega) (by omega) (by omega) (by omega) (by omega)).bind (c' := 2 * N + 2) ?_).mono (by omega)
    refine ((cost_getTopics c3.inv (by omega) (by omega) hN l2' (by omega) hx).bind (c' := N + 1) ?_).mono (by omega)
    refine ((cost_getData c3.inv (by omega) (by omega) hN l3 (by omega) hy).bind (c' := 0) ?_).mono (by omega)
    exact Cost.pure _
  | authKey x v y =>
    obtain ⟨h0, h1⟩ := root_start pol 0 (by omega)
    unfold build
    dsimp only
    generalize (start pol).initStruct pol 0 0 1 1 = r at *
    obtain ⟨b0, s, i⟩ := r
    dsimp only at *
    have c1 := Content.start pol (d := 1) (c := 2) h0 (by omega) (by omega) (by omega) (by omega)
    dsimp only at c1
    generalize (b0.set s i 0).initStruct pol s (i + 1) 1 2 = r at *
    obtain ⟨b1, q, p⟩ := r
    dsimp only at *
    obtain ⟨hx, hy⟩ := hm
    have hnx : nw x < 2 ^ 27 := by unfold nw; omega
    have hny : nw y < 2 ^ 27 := by unfold nw; omega
    have hu1 := c1.str.2.2
    obtain ⟨c2, e2, l2⟩ := c1.setBytes pol (k := 1) h0 x (by omega) hx (by omega) (by omega)
    have hu2 := c2.str.2.2
    have c2' := c2.setWord h0 (by omega) v.toNat v.toNat_lt
    have hu2' := c2'.str.2.2
    have l2' := l2.ext (ext_set _ q p v.toNat) (by omega) (by omega) (by rintro s' q' ⟨rfl, rfl⟩; omega)
    obtain ⟨c3, e3, l3⟩ := c2'.setBytes pol (k := 2) h0 y (by omega) hy (by omega) (by omega)
    have hu := c3.str.2.2
    have l2'' := l2'.ext e3 (by omega) (by omega) (by rintro s' q' ⟨rfl, rfl⟩; omega)
    refine (c3.root h0).good (by omega) (by omega) fun N hN => ?_
    refine ((c3.read h0 (by omega) (by omega) (by omega) (by omega) (by omega)).bind (c' := 2 * N + 2) ?_).mono (by omega)
    refine ((cost_getData c3.inv (by omega) (by omega) hN l2'' (by omega) hx).bind (c' := N + 1) ?_).mono (by omega)
    refine ((cost_word0 (by omega) (by omega)).bind (c' := N + 1) ?_).mono (by omega)
    refine ((cost_getData c3.inv (by omega) (by omega) hN l3 (by omega) hy).bind (c' := 0) ?_).mono (by omega)
    rw [e3.word q p (by omega) (by omega), word_set, if_pos ⟨rfl, rfl⟩, UInt64.ofNat_toNat]
    exact Cost.pure _

theorem out_length (b : Bld) : b.out.length = b.segs.length := by simp [out]

theorem mem_out {b : Bld} {l : List Nat} (h : l ∈ b.out) : ∃ s, l = (List.range (b.used s)).map (b.word s) := by
  unfold out at h
  rw [List.mem_map] at h
  obtain ⟨s, _, rfl⟩ := h
  exact ⟨s, rfl⟩

theorem used_le_total (b : Bld) (s : Nat) : b.used s ≤ b.out.flatten.length := by
  by_cases h : 0 < b.used s
  · have h1 := out_getElem? b s h
    have := (List.sublist_flatten_of_mem (List.mem_of_getElem? h1)).length_le
    simpa using this
  · omega

end Bld

/-- What was written is read back. -/
theorem deserialize_serialize (pol : Policy) (m : Msg) (hm : Fits m) : deserialize (serialize pol m) = .ok m := by
  obtain ⟨M, K, hI, hM, hK, h0, hr⟩ := Bld.build_good pol m hm
  unfold deserialize serialize
  have hlen := length_flatten (build pol m).out
  have hT := Bld.used_le_total (build pol m)
  have hsegs := hI.segs
  have hpos := hI.pos
  have hol := Bld.out_length (build pol m)
  rw [readSegs_flatten _ _ (by intro h; rw [h] at hol; simp at hol; omega) (by omega) (by omega) ?_ ?_]
  · dsimp only
    have := hT 0
    obtain ⟨l', h1, _⟩ := hr _ hT (flatten (build pol m).out).length (by omega)
    rw [h1]
  · intro a ha
    obtain ⟨s, rfl⟩ := Bld.mem_out ha
    have := hI.used s
    simp
    omega
  · intro a ha w hw
    obtain ⟨s, rfl⟩ := Bld.mem_out ha
    rw [List.mem_map] at hw
    obtain ⟨j, _, rfl⟩ := hw
    exact hI.word s j

end Verif.Codec

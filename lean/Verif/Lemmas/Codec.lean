import Verif.Model.Codec

/-!
# Lemmas about the wire format
-/

namespace Verif.Codec
open Verif

/-! ## Words and bytes -/

theorem length_le (k n : Nat) : (le k n).length = k := by
  induction k generalizing n with
  | zero => rfl
  | succ k ih => simp [le, ih]

theorem leNat_lt (bs : Bytes) : leNat bs < 256 ^ bs.length := by
  induction bs with
  | nil => simp [leNat]
  | cons b bs ih =>
    have := b.toNat_lt
    simp only [leNat, List.length_cons, Nat.pow_succ]
    omega

theorem leNat_le (k n : Nat) (h : n < 256 ^ k) : leNat (le k n) = n := by
  induction k generalizing n with
  | zero => simp at h; simp [le, leNat, h]
  | succ k ih =>
    rw [Nat.pow_succ] at h
    simp only [le, leNat]
    rw [ih (n / 256) (by omega)]
    have : (UInt8.ofNat n).toNat = n % 256 := by simp
    omega

theorem le_leNat (bs : Bytes) (k : Nat) (h : bs.length ≤ k) :
    le k (leNat bs) = bs ++ List.replicate (k - bs.length) 0 := by
  induction bs generalizing k with
  | nil =>
    simp only [leNat, List.nil_append, List.length_nil, Nat.sub_zero]
    clear h
    induction k with
    | zero => rfl
    | succ k ih => simp only [le, Nat.zero_div, ih, List.replicate_succ]; rfl
  | cons b bs ih =>
    cases k with
    | zero => simp at h
    | succ k =>
      simp only [List.length_cons] at h
      have hb := b.toNat_lt
      have e1 : (b.toNat + 256 * leNat bs) / 256 = leNat bs := by omega
      have e2 : UInt8.ofNat (b.toNat + 256 * leNat bs) = b := by
        apply UInt8.toNat_inj.1
        simp only [UInt8.toNat_ofNat']
        omega
      simp only [leNat, le, e1, e2, ih k (by omega), List.length_cons, List.cons_append, Nat.add_sub_add_right]

theorem length_chunks (n : Nat) (bs : Bytes) : (chunks n bs).length = n := by
  induction n generalizing bs with
  | zero => rfl
  | succ n ih => simp [chunks, ih]

theorem chunks_lt (n : Nat) (bs : Bytes) : ∀ w ∈ chunks n bs, w < 2 ^ 64 := by
  induction n generalizing bs with
  | zero => simp [chunks]
  | succ n ih =>
    intro w hw
    rcases List.mem_cons.1 hw with rfl | hw
    · have h1 := leNat_lt (bs.take 8)
      have h2 : (bs.take 8).length ≤ 8 := by simp; omega
      have h3 : 256 ^ (bs.take 8).length ≤ 256 ^ 8 := Nat.pow_le_pow_right (by omega) h2
      have h4 : (256 : Nat) ^ 8 = 2 ^ 64 := by decide
      omega
    · exact ih _ w hw

theorem length_bytesOf (ws : List Nat) : (bytesOf ws).length = 8 * ws.length := by
  induction ws with
  | nil => rfl
  | cons w ws ih =>
    simp only [bytesOf, List.flatMap_cons, List.length_append, length_le, List.length_cons] at ih ⊢
    omega

theorem bytesOf_cons (w : Nat) (ws : List Nat) : bytesOf (w :: ws) = le 8 w ++ bytesOf ws := rfl

theorem bytesOf_append (ws ws' : List Nat) : bytesOf (ws ++ ws') = bytesOf ws ++ bytesOf ws' := by
  simp [bytesOf]

theorem bytesOf_drop (ws : List Nat) (k : Nat) : bytesOf (ws.drop k) = (bytesOf ws).drop (8 * k) := by
  induction ws generalizing k with
  | nil => simp [bytesOf]
  | cons w ws ih =>
    cases k with
    | zero => rfl
    | succ k =>
      rw [List.drop_succ_cons, ih, bytesOf_cons, List.drop_append]
      simp [length_le, Nat.mul_add]

theorem bytesOf_take (ws : List Nat) (k : Nat) : bytesOf (ws.take k) = (bytesOf ws).take (8 * k) := by
  induction ws generalizing k with
  | nil => simp [bytesOf]
  | cons w ws ih =>
    cases k with
    | zero => rfl
    | succ k =>
      rw [List.take_succ_cons, bytesOf_cons, ih, bytesOf_cons, List.take_append]
      rw [List.take_of_length_le (l := le 8 w) (by rw [length_le]; omega), length_le]
      congr 2

theorem bytesOf_chunks (n : Nat) (bs : Bytes) :
    bytesOf (chunks n bs) = bs.take (8 * n) ++ List.replicate (8 * n - bs.length) 0 := by
  induction n generalizing bs with
  | zero => simp [chunks, bytesOf]
  | succ n ih =>
    rw [chunks, bytesOf_cons, ih, le_leNat _ _ (by simp; omega)]
    by_cases h : bs.length ≤ 8
    · rw [List.take_of_length_le h, List.drop_eq_nil_of_le h, List.take_of_length_le (l := bs) (by omega)]
      simp only [List.take_nil, List.length_nil, List.nil_append, List.append_assoc, List.append_cancel_left_eq,
        List.replicate_append_replicate]
      congr 1
      omega
    · have h8 : (bs.take 8).length = 8 := by simp; omega
      rw [h8]
      simp only [Nat.sub_self, List.replicate_zero, List.append_nil, List.length_drop]
      rw [← List.append_assoc]
      congr 1
      · rw [show 8 * (n + 1) = 8 + 8 * n by omega, List.take_add]
      · congr 1; omega

theorem chunks_bytesOf (ws : List Nat) (r : Bytes) (h : ∀ w ∈ ws, w < 2 ^ 64) :
    chunks ws.length (bytesOf ws ++ r) = ws := by
  induction ws with
  | nil => rfl
  | cons w ws ih =>
    have e : (2 : Nat) ^ 64 = 256 ^ 8 := by decide
    have hl := length_le 8 w
    rw [List.length_cons, chunks, bytesOf_cons, List.append_assoc, List.take_left' hl, List.drop_left' hl,
      leNat_le 8 w (by have := h w (by simp); omega), ih (fun w hw => h w (List.mem_cons_of_mem _ hw))]

theorem split_flatten (segs : Segs) : split (segs.map List.length) segs.flatten = segs := by
  induction segs with
  | nil => rfl
  | cons a segs ih => simp [split, ih]

/-! ## The segment table -/

theorem flatMap_le_drop (k : Nat) (l : List Nat) (r : Bytes) (i : Nat) (h : i < l.length) :
    ((l.flatMap (le k) ++ r).drop (k * i)).take k = le k l[i] := by
  induction l generalizing i with
  | nil => simp at h
  | cons a l ih =>
    rw [List.flatMap_cons, List.append_assoc]
    cases i with
    | zero => simp [List.take_left' (length_le k a)]
    | succ i =>
      rw [show k * (i + 1) = k + k * i by rw [Nat.mul_add]; omega, ← List.drop_drop, List.drop_left' (length_le k a)]
      simpa using ih i (by simpa using h)

theorem length_flatMap_le (k : Nat) (l : List Nat) : (l.flatMap (le k)).length = k * l.length := by
  induction l with
  | nil => simp
  | cons a l ih => rw [List.flatMap_cons, List.length_append, ih, length_le, List.length_cons, Nat.mul_add]; omega

theorem sum_map_length {α : Type} (l : List (List α)) : (l.map List.length).sum = l.flatten.length :=
  List.length_flatten.symm

theorem length_flatten (segs : Segs) :
    (flatten segs).length = 4 + 4 * segs.length + (if segs.length % 2 = 0 then 4 else 0) + 8 * segs.flatten.length := by
  unfold flatten
  rw [List.length_append, List.length_append, List.length_append, length_le, length_flatMap_le, List.length_map,
    length_bytesOf]
  split <;> simp [length_le]

/-- What was written is read back as the same segments. -/
theorem readSegs_flatten (segs : Segs) (limit : Nat) (h0 : segs ≠ []) (h1 : segs.length < 512)
    (hl : segs.flatten.length ≤ limit) (h32 : ∀ a ∈ segs, a.length < 2 ^ 32)
    (hw : ∀ a ∈ segs, ∀ w ∈ a, w < 2 ^ 64) : readSegs limit (flatten segs) = .ok segs := by
  have hlen := length_flatten segs
  have hpos : 0 < segs.length := List.length_pos_iff.2 h0
  obtain ⟨pad, hpad, hpl⟩ : ∃ pad : Bytes, flatten segs =
      le 4 (segs.length - 1) ++ ((segs.map List.length).flatMap (le 4) ++ (pad ++ bytesOf segs.flatten)) ∧
      4 + 4 * segs.length + pad.length = 8 + 8 * (segs.length / 2) := by
    refine ⟨if segs.length % 2 = 0 then le 4 0 else [], by unfold flatten; simp only [List.append_assoc], ?_⟩
    by_cases hp : segs.length % 2 = 0
    · rw [if_pos hp, length_le]; omega
    · rw [if_neg hp, List.length_nil]; omega
  have hcount : leNat ((flatten segs).take 4) = segs.length - 1 := by
    rw [hpad, List.take_left' (length_le 4 _), leNat_le 4 _ (by omega)]
  have hd : (flatten segs).drop 4 = (segs.map List.length).flatMap (le 4) ++ (pad ++ bytesOf segs.flatten) := by
    rw [hpad, List.drop_left' (length_le 4 _)]
  have hbody : (flatten segs).drop (8 + 8 * (segs.length / 2)) = bytesOf segs.flatten := by
    rw [← hpl, Nat.add_assoc, ← List.drop_drop, hd, ← List.append_assoc]
    apply List.drop_left'
    rw [List.length_append, length_flatMap_le, List.length_map]
  have hlens : (List.range segs.length).map (fun k => leNat (((flatten segs).drop (4 + 4 * k)).take 4)) =
      segs.map List.length := by
    apply List.ext_getElem
    · simp
    · intro k h1 h2
      have hk : k < segs.length := by simpa using h1
      rw [List.getElem_map, List.getElem_range, ← List.drop_drop, hd, flatMap_le_drop 4 _ _ k (by simpa using hk),
        leNat_le]
      have := h32 segs[k] (List.getElem_mem _)
      simp only [List.getElem_map]
      omega
  have hc : (segs.length - 1 + 1) % 2 ^ 32 = segs.length := by omega
  unfold readSegs
  rw [if_neg (by omega)]
  simp only [hcount, hc]
  rw [if_neg (by omega), if_neg (by split at hlen <;> omega), hlens, hbody, sum_map_length, if_neg (by omega),
    length_bytesOf, if_neg (by omega)]
  have := chunks_bytesOf segs.flatten [] (by
    intro w hw'
    obtain ⟨a, ha, hwa⟩ := List.mem_flatten.1 hw'
    exact hw a ha w hwa)
  rw [List.append_nil] at this
  rw [this, split_flatten]

end Verif.Codec

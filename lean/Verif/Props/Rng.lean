import Verif.Model.Rng

/-!
# Property C114: the deterministic generator
-/

namespace Verif.Props.Rng
open Verif.Rng

/-! ## Specification -/

/-- The `i`-th byte of the number, the lowest first. -/
def byteAt (seed : UInt64) (i : Nat) : UInt8 := UInt8.ofNat (seed.toNat / 256 ^ i)

/-- How many bytes a call asks for. -/
def asked : Call → Nat
  | .fill n | .tryFill n => n
  | .u32 | .u64 => 0

/-! ## Proofs -/

theorem shift_toNat (s : UInt64) : (s >>> 8).toNat = s.toNat / 256 := by
  rw [UInt64.toNat_shiftRight, Nat.shiftRight_eq_div_pow]
  rfl

theorem byteAt_succ (s : UInt64) (i : Nat) : byteAt (s >>> 8) i = byteAt s (i + 1) := by
  unfold byteAt
  rw [shift_toNat, Nat.div_div_eq_div_mul, Nat.pow_succ']

theorem fill_spec (n : Nat) (g : DRng) :
    (fillBytes n g).1 = (List.range n).map (byteAt g.state) ∧
    (fillBytes n g).2.state.toNat = g.state.toNat / 256 ^ n := by
  induction n generalizing g with
  | zero => simp [fillBytes]
  | succ n ih =>
    obtain ⟨h1, h2⟩ := ih ⟨g.state >>> 8⟩
    constructor
    · simp only [fillBytes, h1, List.range_succ_eq_map, List.map_cons, List.map_map]
      congr 1
      · apply UInt8.toNat_inj.1
        simp [byteAt]
      · apply List.map_congr_left
        intro i _
        exact byteAt_succ _ _
    · simp only [fillBytes, h2, shift_toNat, Nat.div_div_eq_div_mul, Nat.pow_succ']

theorem byteAt_shift (s t : UInt64) (n i : Nat) (h : t.toNat = s.toNat / 256 ^ n) : byteAt t i = byteAt s (n + i) := by
  unfold byteAt
  rw [h, Nat.div_div_eq_div_mul, Nat.pow_add]

theorem call_spec (g : DRng) (c : Call) : (call g c).1 = (List.range (asked c)).map (byteAt g.state) ∧
    (call g c).2.state.toNat = g.state.toNat / 256 ^ asked c := by
  cases c with
  | fill n => exact fill_spec n g
  | tryFill n => exact fill_spec n g
  | u32 => simp [call, asked, nextU32]
  | u64 => simp [call, asked, nextU64]

/-- **C114, the bytes.** However many calls are made, of whichever methods and for however many bytes, the bytes
written are, one after the other, the eight bytes of the seed, the lowest first, and then zeros. -/
theorem C114_stream (seed : UInt64) (cs : List Call) :
    (calls ⟨seed⟩ cs).1 = (List.range (cs.map asked).sum).map (byteAt seed) ∧ ∀ i, 8 ≤ i → byteAt seed i = 0 := by
  refine ⟨?_, fun i hi => ?_⟩
  · suffices h : ∀ (cs : List Call) (g : DRng), (calls g cs).1 = (List.range (cs.map asked).sum).map (byteAt g.state) from
      h cs ⟨seed⟩
    intro cs
    induction cs with
    | nil => intro g; rfl
    | cons c cs ih =>
      intro g
      obtain ⟨h1, h2⟩ := call_spec g c
      simp only [calls, h1, ih, List.map_cons, List.sum_cons, List.range_add, List.map_append, List.map_map]
      congr 1
      apply List.map_congr_left
      intro i _
      exact byteAt_shift _ _ _ _ h2
  · unfold byteAt
    have h1 : seed.toNat < 256 ^ 8 := seed.toNat_lt
    have h2 : 256 ^ 8 ≤ 256 ^ i := Nat.pow_le_pow_right (by decide) hi
    rw [Nat.div_eq_of_lt (by omega)]
    rfl

/-- **C114, in pieces.** It makes no difference in how many pieces the bytes are asked for. -/
theorem C114_pieces (seed : UInt64) (cs cs' : List Call) (h : (cs.map asked).sum = (cs'.map asked).sum) :
    (calls ⟨seed⟩ cs).1 = (calls ⟨seed⟩ cs').1 := by
  rw [(C114_stream seed cs).1, (C114_stream seed cs').1, h]

theorem digits (a : Nat) (n : Nat) : a % 256 ^ n = ((List.range n).map (fun i => a / 256 ^ i % 256 * 256 ^ i)).sum := by
  induction n with
  | zero => simp [Nat.mod_one]
  | succ n ih =>
    rw [List.range_succ, List.map_append, List.sum_append, ← ih]
    simp only [List.map_cons, List.map_nil, List.sum_cons, List.sum_nil, Nat.add_zero]
    rw [Nat.pow_succ, Nat.mod_mul, Nat.mul_comm (256 ^ n)]

/-- **C114, different seeds.** Two generators of which at least eight bytes have been read have yielded the same
bytes only if their seeds are the same. -/
theorem C114_seeds_differ (seed seed' : UInt64) (cs : List Call) (h8 : 8 ≤ (cs.map asked).sum)
    (h : (calls ⟨seed⟩ cs).1 = (calls ⟨seed'⟩ cs).1) : seed = seed' := by
  rw [(C114_stream seed cs).1, (C114_stream seed' cs).1] at h
  have hb : ∀ i < 8, seed.toNat / 256 ^ i % 256 = seed'.toNat / 256 ^ i % 256 := by
    intro i hi
    have h1 : byteAt seed i = byteAt seed' i := by
      have := congrArg (fun l => l[i]?) h
      have hr : (List.range (cs.map asked).sum)[i]? = some i := by
        rw [List.getElem?_range]; omega
      simpa [List.getElem?_map, hr] using this
    have h2 := congrArg UInt8.toNat h1
    simpa [byteAt, UInt8.toNat_ofNat'] using h2
  apply UInt64.toNat_inj.1
  have e : ∀ s : UInt64, s.toNat % 256 ^ 8 = s.toNat := fun s => Nat.mod_eq_of_lt s.toNat_lt
  rw [← e seed, ← e seed', digits, digits]
  congr 1
  apply List.map_congr_left
  intro i hi
  rw [hb i (List.mem_range.1 hi)]

/-- **C114, numbers.** `next_u64` does not move the generator on: it returns the same number until bytes are read (and zero
after eight have been). -/
theorem C114_next_u64 (seed : UInt64) (cs : List Call) :
    (nextU64 (calls ⟨seed⟩ cs).2).1.toNat = seed.toNat / 256 ^ (cs.map asked).sum ∧
    (nextU32 (calls ⟨seed⟩ cs).2).1.toNat = seed.toNat / 256 ^ (cs.map asked).sum % 2 ^ 32 := by
  have h : ∀ (cs : List Call) (g : DRng), (calls g cs).2.state.toNat = g.state.toNat / 256 ^ (cs.map asked).sum := by
    intro cs
    induction cs with
    | nil => intro g; simp [calls]
    | cons c cs ih =>
      intro g
      simp only [calls, ih, (call_spec g c).2, List.map_cons, List.sum_cons, Nat.div_div_eq_div_mul, Nat.pow_add]
  refine ⟨h cs ⟨seed⟩, ?_⟩
  show (calls ⟨seed⟩ cs).2.state.toUInt32.toNat = _
  rw [UInt64.toNat_toUInt32, h]

example : (calls ⟨0x0102030405060708⟩ [.fill 3, .u64, .tryFill 7]).1 = [8, 7, 6, 5, 4, 3, 2, 1, 0, 0] := by
  decide +kernel

end Verif.Props.Rng

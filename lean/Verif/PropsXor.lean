import Verif.ModelXor
import Mathlib.Data.Set.Card
import Mathlib.Tactic.Ring
import Mathlib.Tactic.Positivity

/-!
# C06: XOR shares
-/

namespace Verif

theorem maxInt_toNat {b : ℕ} (h : b ≤ 63) : (maxInt b).toNat = 2 ^ b := by
  unfold maxInt
  rw [BitVec.toNat_shiftLeft, Nat.shiftLeft_eq]
  have : 2 ^ b ≤ 2 ^ 63 := Nat.pow_le_pow_right (by norm_num) h
  simp
  omega

/-- `max_int * max_int` as used for squares does not wrap up to 31 bits. -/
theorem maxInt_sq_toNat {b : ℕ} (h : b ≤ 31) : (maxInt b * maxInt b).toNat = 2 ^ (2 * b) := by
  have h1 : 2 ^ (2 * b) ≤ 2 ^ 62 := Nat.pow_le_pow_right (by norm_num) (by omega)
  rw [BitVec.toNat_mul, maxInt_toNat (by omega), ← pow_add, ← two_mul]
  apply Nat.mod_eq_of_lt; omega

/-- C06. For a width `w` (value or square) and any word-sized modulus equal to `2^w`, any draw and any value below
`2^w`: both shares are below `2^w` and XOR to the value. -/
theorem C06_shares_reconstruct (w : ℕ) (m raw v : U64) (hm : m.toNat = 2 ^ w) (hv : v < m) :
    (xorSplit m raw v).1 < m ∧ (xorSplit m raw v).2 < m ∧
    (xorSplit m raw v).1 ^^^ (xorSplit m raw v).2 = v := by
  have h1 : (raw % m).toNat < 2 ^ w := by
    rw [BitVec.toNat_umod, hm]; exact Nat.mod_lt _ (by positivity)
  rw [BitVec.lt_def, hm] at hv
  refine ⟨?_, ?_, ?_⟩
  · rw [BitVec.lt_def, hm]; exact h1
  · rw [BitVec.lt_def, hm]
    show (raw % m ^^^ v).toNat < _
    rw [BitVec.toNat_xor]
    exact Nat.xor_lt_two_pow h1 hv
  · show raw % m ^^^ (raw % m ^^^ v) = v
    rw [← BitVec.xor_assoc, BitVec.xor_self, BitVec.zero_xor]

/-- Number of 64-bit draws whose reduction is a given word. -/
theorem card_reduce (w : ℕ) (hw : w ≤ 64) (m s : U64) (hm : m.toNat = 2 ^ w) (hs : s < m) :
    Set.ncard {raw : U64 | raw % m = s} = 2 ^ (64 - w) := by
  rw [BitVec.lt_def, hm] at hs
  have hpow : 2 ^ w * 2 ^ (64 - w) = 2 ^ 64 := by rw [← pow_add]; congr 1; omega
  have hb : ∀ k, k < 2 ^ (64 - w) → s.toNat + 2 ^ w * k < 2 ^ 64 := by
    intro k hk
    have : 2 ^ w * (k + 1) ≤ 2 ^ w * 2 ^ (64 - w) := Nat.mul_le_mul_left _ hk
    rw [hpow] at this
    rw [Nat.mul_add] at this; omega
  have himg : {raw : U64 | raw % m = s} =
      (fun k => BitVec.ofNat 64 (s.toNat + 2 ^ w * k)) '' (Finset.range (2 ^ (64 - w)) : Set ℕ) := by
    ext raw
    simp only [Set.mem_ofPred_eq, Set.mem_image, Finset.coe_range, Set.mem_Iio]
    constructor
    · intro hraw
      have hr := congrArg BitVec.toNat hraw
      rw [BitVec.toNat_umod, hm] at hr
      refine ⟨raw.toNat / 2 ^ w, ?_, ?_⟩
      · apply Nat.div_lt_of_lt_mul
        rw [hpow]; exact raw.isLt
      · apply BitVec.eq_of_toNat_eq
        have := Nat.mod_add_div raw.toNat (2 ^ w)
        rw [BitVec.toNat_ofNat, ← hr, this, Nat.mod_eq_of_lt raw.isLt]
    · rintro ⟨k, hk, rfl⟩
      apply BitVec.eq_of_toNat_eq
      rw [BitVec.toNat_umod, BitVec.toNat_ofNat, Nat.mod_eq_of_lt (hb k hk), hm, Nat.add_mul_mod_self_left,
        Nat.mod_eq_of_lt hs]
  rw [himg, Set.InjOn.ncard_image, Set.ncard_coe_finset, Finset.card_range]
  intro k hk k' hk' h
  simp only [Finset.coe_range, Set.mem_Iio] at hk hk'
  have := congrArg BitVec.toNat h
  simp only [BitVec.toNat_ofNat] at this
  rw [Nat.mod_eq_of_lt (hb k hk), Nat.mod_eq_of_lt (hb k' hk')] at this
  exact Nat.eq_of_mul_eq_mul_left (by positivity : 0 < 2 ^ w) (by omega)

/-- C06, hiding: for every value below `2^w` and every word `s` below `2^w`, exactly `2^(64-w)` of the `2^64` draws give
`s` to server 0, and exactly as many give it to server 1. The counts do not depend on the value. -/
theorem C06_share_hides (w : ℕ) (hw : w ≤ 64) (m v s : U64) (hm : m.toNat = 2 ^ w) (hv : v < m) (hs : s < m) :
    Set.ncard {raw : U64 | (xorSplit m raw v).1 = s} = 2 ^ (64 - w) ∧
    Set.ncard {raw : U64 | (xorSplit m raw v).2 = s} = 2 ^ (64 - w) := by
  refine ⟨card_reduce w hw m s hm hs, ?_⟩
  have hx : (s ^^^ v) < m := by
    rw [BitVec.lt_def, hm] at *
    rw [BitVec.toNat_xor]; exact Nat.xor_lt_two_pow hs hv
  rw [← card_reduce w hw m (s ^^^ v) hm hx]
  congr 1
  ext raw
  simp only [Set.mem_ofPred_eq, xorSplit]
  constructor
  · intro h; rw [← h, BitVec.xor_assoc, BitVec.xor_self, BitVec.xor_zero]
  · intro h; rw [h, BitVec.xor_assoc, BitVec.xor_self, BitVec.xor_zero]

/-- C06 instantiated at the two moduli the client uses: `max_int` (widths up to 63) and `max_int * max_int`
(widths up to 31). -/
theorem C06_client_moduli (b : ℕ) (raw v : U64) :
    (b ≤ 63 → v < maxInt b → (xorSplit (maxInt b) raw v).1 < maxInt b ∧ (xorSplit (maxInt b) raw v).2 < maxInt b ∧
      (xorSplit (maxInt b) raw v).1 ^^^ (xorSplit (maxInt b) raw v).2 = v) ∧
    (b ≤ 31 → v < maxInt b →
      (xorSplit (maxInt b * maxInt b) raw (v * v)).1 < maxInt b * maxInt b ∧
      (xorSplit (maxInt b * maxInt b) raw (v * v)).2 < maxInt b * maxInt b ∧
      (xorSplit (maxInt b * maxInt b) raw (v * v)).1 ^^^ (xorSplit (maxInt b * maxInt b) raw (v * v)).2 = v * v ∧
      (v * v).toNat = v.toNat ^ 2) := by
  refine ⟨fun hb hv => C06_shares_reconstruct b _ _ _ (maxInt_toNat hb) hv, fun hb hv => ?_⟩
  rw [BitVec.lt_def, maxInt_toNat (by omega)] at hv
  have hsq : v.toNat * v.toNat < 2 ^ (2 * b) := by
    rw [two_mul, pow_add]; exact Nat.mul_lt_mul'' hv hv
  have h62 : 2 ^ (2 * b) ≤ 2 ^ 62 := Nat.pow_le_pow_right (by norm_num) (by omega)
  have hvv : (v * v).toNat = v.toNat ^ 2 := by
    rw [BitVec.toNat_mul, sq, Nat.mod_eq_of_lt (by omega)]
  have hlt : v * v < maxInt b * maxInt b := by
    rw [BitVec.lt_def, maxInt_sq_toNat hb, hvv, sq]; exact hsq
  obtain ⟨h1, h2, h3⟩ := C06_shares_reconstruct (2 * b) _ raw (v * v) (maxInt_sq_toNat hb) hlt
  exact ⟨h1, h2, h3, hvv⟩

/-- C06 for full words (AND/OR, MAX/MIN) and single bits (BIT_SUM, FREQ): reconstruction, and exactly one draw
per share value and server. -/
theorem C06_words_and_bits (v s : U64) (bv bs : Bool) :
    (∀ raw, (xorSplitWord raw v).1 ^^^ (xorSplitWord raw v).2 = v) ∧
    (∃! raw, (xorSplitWord raw v).1 = s) ∧ (∃! raw, (xorSplitWord raw v).2 = s) ∧
    (∀ raw, ((xorSplitBit raw bv).1 ^^ (xorSplitBit raw bv).2) = bv) ∧
    (∃! raw, (xorSplitBit raw bv).1 = bs) ∧ (∃! raw, (xorSplitBit raw bv).2 = bs) := by
  refine ⟨?_, ⟨s, rfl, fun r h => h⟩, ⟨s ^^^ v, ?_, ?_⟩, ?_, ⟨bs, rfl, fun r h => h⟩, ⟨bs ^^ bv, ?_, ?_⟩⟩
  · intro raw
    show raw ^^^ (raw ^^^ v) = v
    rw [← BitVec.xor_assoc, BitVec.xor_self, BitVec.zero_xor]
  · show (s ^^^ v) ^^^ v = s
    rw [BitVec.xor_assoc, BitVec.xor_self, BitVec.xor_zero]
  · intro r h
    have h : r ^^^ v = s := h
    rw [← h, BitVec.xor_assoc, BitVec.xor_self, BitVec.xor_zero]
  · intro raw; cases raw <;> cases bv <;> rfl
  · cases bs <;> cases bv <;> rfl
  · intro r h; revert h; cases bs <;> cases bv <;> cases r <;> simp [xorSplitBit]

/-- Non-vacuity: an 8-bit value and a concrete draw. -/
example : xorSplit (maxInt 8) 0x1234#64 200#64 = (0x34#64, 0xfc#64) ∧ 200#64 < maxInt 8 := by decide

end Verif

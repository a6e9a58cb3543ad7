import Verif.ModelConstants
import Mathlib.NumberTheory.LucasPrimality
import Mathlib.Data.ZMod.Basic
import Mathlib.Tactic.NormNum.Prime
import Mathlib.Tactic.Ring
import Mathlib.GroupTheory.OrderOfElement
import Mathlib.RingTheory.RootsOfUnity.PrimitiveRoots
import Mathlib.FieldTheory.Finite.Basic

namespace Verif

/-- Fast modular power used only inside proofs (binary exponentiation with fuel). -/
def powModAux (m : ℕ) : ℕ → ℕ → ℕ → ℕ → ℕ
  | 0, _, _, acc => acc
  | f + 1, b, e, acc =>
    if e = 0 then acc
    else powModAux m f (b * b % m) (e / 2) (if e % 2 = 1 then acc * b % m else acc)

theorem powModAux_spec (m f b e acc : ℕ) (h : e < 2 ^ f) :
    (powModAux m f b e acc : ZMod m) = (acc : ZMod m) * (b : ZMod m) ^ e := by
  induction f generalizing b e acc with
  | zero => 
    have : e = 0 := by simpa using h
    subst this; simp [powModAux]
  | succ f ih =>
    unfold powModAux
    split
    · next h0 => subst h0; simp
    · next h0 =>
      have h2 : e / 2 < 2 ^ f := by
        rw [Nat.div_lt_iff_lt_mul (by norm_num)]; rw [pow_succ] at h; exact h
      rw [ih _ _ _ h2]
      have he : e = 2 * (e / 2) + e % 2 := by omega
      have hb : (((b * b % m : ℕ)) : ZMod m) = (b : ZMod m) ^ 2 := by
        rw [ZMod.natCast_mod]; push_cast; ring
      rw [hb, ← pow_mul]
      split
      · next h1 =>
        rw [ZMod.natCast_mod]; push_cast
        conv_rhs => rw [he, h1]
        ring
      · next h1 =>
        have h1' : e % 2 = 0 := by omega
        conv_rhs => rw [he, h1']
        simp

theorem powMod_eq (m b e r : ℕ) (h : powModAux m 64 b e 1 = r) (he : e < 2 ^ 64) :
    (b : ZMod m) ^ e = (r : ZMod m) := by
  have := powModAux_spec m 64 b e 1 he
  rw [h] at this
  rw [this]; simp

theorem intModulus_sub_one : intModulus - 1 = 2 ^ 19 * (3 ^ 2 * 5 * 31 * 337 * 571) := by
  decide

theorem intModulus_prime : Nat.Prime intModulus := by
  apply lucas_primality intModulus ((7 : ℕ) : ZMod intModulus)
  · rw [powMod_eq intModulus 7 (intModulus - 1) 1 (by decide +kernel) (by decide)]; simp
  · intro q hq hd
    rw [intModulus_sub_one] at hd
    have hq2 : q = 2 ∨ q = 3 ∨ q = 5 ∨ q = 31 ∨ q = 337 ∨ q = 571 := by
      have key : ∀ r : ℕ, r.Prime → q ∣ r → q = r := fun r hr h => (Nat.prime_dvd_prime_iff_eq hq hr).1 h
      rcases (Nat.Prime.dvd_mul hq).1 hd with h | h
      · left; exact key 2 (by norm_num) (hq.dvd_of_dvd_pow h)
      rcases (Nat.Prime.dvd_mul hq).1 h with h | h
      · rcases (Nat.Prime.dvd_mul hq).1 h with h | h
        · rcases (Nat.Prime.dvd_mul hq).1 h with h | h
          · rcases (Nat.Prime.dvd_mul hq).1 h with h | h
            · right; left; exact key 3 (by norm_num) (hq.dvd_of_dvd_pow h)
            · right; right; left; exact key 5 (by norm_num) h
          · right; right; right; left; exact key 31 (by norm_num) h
        · right; right; right; right; left; exact key 337 (by norm_num) h
      · right; right; right; right; right; exact key 571 (by norm_num) h
    have fin : ∀ e r : ℕ, powModAux intModulus 64 7 e 1 = r → e < 2 ^ 64 → r < intModulus → r ≠ 1 →
        ((7 : ℕ) : ZMod intModulus) ^ e ≠ 1 := by
      intro e r h1 h2 h3 h4 h5
      rw [powMod_eq _ _ _ _ h1 h2] at h5
      have h6 : ((r : ℕ) : ZMod intModulus) = ((1 : ℕ) : ZMod intModulus) := by rw [h5]; simp
      rw [ZMod.natCast_eq_natCast_iff'] at h6
      rw [Nat.mod_eq_of_lt h3, Nat.mod_eq_of_lt (by decide)] at h6
      exact h4 h6
    rcases hq2 with h | h | h | h | h | h <;> subst h
    all_goals exact fin _ _ rfl (by decide +kernel) (by decide +kernel) (by decide +kernel)

instance : Fact intModulus.Prime := ⟨intModulus_prime⟩

theorem intGen_half : ((intGen : ℕ) : ZMod intModulus) ^ (2 ^ 18) = -1 := by
  rw [powMod_eq intModulus intGen (2 ^ 18) (intModulus - 1) (by decide +kernel) (by decide)]
  rw [Nat.cast_sub (by decide)]; simp

theorem intModulus_two_lt : 2 < intModulus := by decide

theorem intGen_orderOf : orderOf ((intGen : ℕ) : ZMod intModulus) = 2 ^ 19 := by
  apply orderOf_eq_prime_pow
  · rw [intGen_half]
    intro h
    have : ((intModulus - 1 : ℕ) : ZMod intModulus) = ((1 : ℕ) : ZMod intModulus) := by
      rw [Nat.cast_sub (by decide)]; simpa using h
    rw [ZMod.natCast_eq_natCast_iff'] at this
    revert this; decide
  · rw [pow_succ, pow_mul, intGen_half]; norm_num

end Verif

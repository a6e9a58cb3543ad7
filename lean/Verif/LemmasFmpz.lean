import Verif.ModelFmpz
import Mathlib.Data.ZMod.Basic
import Mathlib.Algebra.Field.ZMod
import Mathlib.RingTheory.PrincipalIdealDomain
import Mathlib.RingTheory.Coprime.Lemmas
import Mathlib.RingTheory.Int.Basic
import Mathlib.Tactic.Ring
import Mathlib.Tactic.Linarith

/-! Helper lemmas: integers modulo `p` versus `ZMod p`. -/

namespace Verif

variable {p : ℕ}

@[simp] theorem fmod_cast (x : ℤ) : ((fmod x p : ℤ) : ZMod p) = (x : ZMod p) := by
  unfold fmod
  rw [ZMod.intCast_eq_intCast_iff]
  exact Int.mod_modEq x p

theorem fmod_eq_iff (x y : ℤ) : fmod x p = fmod y p ↔ (x : ZMod p) = (y : ZMod p) := by
  rw [ZMod.intCast_eq_intCast_iff]; rfl

theorem fmod_canon [NeZero p] (x : ℤ) : Canon (fmod x p) p := by
  have hp : (0 : ℤ) < p := by exact_mod_cast Nat.pos_of_ne_zero (NeZero.ne p)
  exact ⟨Int.emod_nonneg _ hp.ne', Int.emod_lt_of_pos _ hp⟩

theorem fmod_of_canon {x : ℤ} (h : Canon x p) : fmod x p = x := Int.emod_eq_of_lt h.1 h.2

theorem canon_eq_of_cast {x y : ℤ} (hx : Canon x p) (hy : Canon y p)
    (h : (x : ZMod p) = (y : ZMod p)) : x = y := by
  rw [← fmod_of_canon hx, ← fmod_of_canon hy, fmod_eq_iff]; exact h

theorem fmod_eq_zero_iff (x : ℤ) : fmod x p = 0 ↔ (x : ZMod p) = 0 := by
  have := fmod_eq_iff (p := p) x 0
  simpa [fmod] using this

theorem canon_zero_iff {x : ℤ} (h : Canon x p) : x = 0 ↔ (x : ZMod p) = 0 := by
  rw [← fmod_eq_zero_iff, fmod_of_canon h]

theorem canon_val [NeZero p] (a : ZMod p) : Canon (a.val : ℤ) p :=
  ⟨by positivity, by exact_mod_cast ZMod.val_lt a⟩

theorem canon_zero (hp : 0 < p) : Canon 0 p := ⟨le_refl _, by exact_mod_cast hp⟩
theorem canon_one (hp : 1 < p) : Canon 1 p := ⟨by norm_num, by exact_mod_cast hp⟩

theorem val_of_canon {x : ℤ} [NeZero p] (h : Canon x p) : (((x : ZMod p)).val : ℤ) = x := by
  apply canon_eq_of_cast (canon_val _) h
  simp

theorem invmod_some {a r : ℤ} (h : invmod a p = some r) : (a : ZMod p) * (r : ZMod p) = 1 := by
  unfold invmod at h
  split at h
  · next hg =>
    injection h with h
    subst h
    rw [fmod_cast]
    have := Int.gcd_eq_gcd_ab a p
    rw [hg] at this
    have h2 := congrArg (fun z : ℤ => (z : ZMod p)) this
    simp at h2
    exact h2.symm
  · exact absurd h (by simp)

theorem invmod_canon [NeZero p] {a r : ℤ} (h : invmod a p = some r) : Canon r p := by
  unfold invmod at h
  split at h
  · injection h with h; subst h; exact fmod_canon _
  · exact absurd h (by simp)

theorem invmod_isSome [hp : Fact p.Prime] {a : ℤ} (h : (a : ZMod p) ≠ 0) : ∃ r, invmod a p = some r := by
  unfold invmod
  have : Int.gcd a p = 1 := by
    rw [Int.gcd_comm, ← Int.isCoprime_iff_gcd_eq_one]
    rw [(Nat.prime_iff_prime_int.1 hp.out).coprime_iff_not_dvd]
    intro hd
    exact h ((ZMod.intCast_zmod_eq_zero_iff_dvd a p).2 hd)
  rw [if_pos this]; exact ⟨_, rfl⟩

theorem invmod_eq_inv [hp : Fact p.Prime] {a r : ℤ} (h : invmod a p = some r) :
    (r : ZMod p) = (a : ZMod p)⁻¹ := by
  exact eq_inv_of_mul_eq_one_right (invmod_some h)

theorem invmod_none [hp : Fact p.Prime] {a : ℤ} : invmod a p = none ↔ (a : ZMod p) = 0 := by
  constructor
  · intro h
    by_contra hc
    obtain ⟨r, hr⟩ := invmod_isSome hc
    rw [hr] at h; cases h
  · intro h
    cases hr : invmod a p with
    | none => rfl
    | some r => have := invmod_some hr; rw [h] at this; simp at this

@[simp] theorem powm_cast (a : ℤ) (k : ℕ) : ((powm a k p : ℤ) : ZMod p) = (a : ZMod p) ^ k := by
  unfold powm; simp

theorem powm_canon [NeZero p] (a : ℤ) (k : ℕ) : Canon (powm a k p) p := fmod_canon _

end Verif

import Verif.LemmasFft
import Verif.LemmasRoots
import Mathlib.RingTheory.RootsOfUnity.PrimitiveRoots
import Mathlib.Algebra.Polynomial.Eval.Degree
import Mathlib.Algebra.Polynomial.BigOperators
import Mathlib.Algebra.Polynomial.Roots
import Mathlib.LinearAlgebra.Lagrange

/-! # C28: the FFT evaluates and interpolates -/

namespace Verif

open Polynomial

/-- The polynomial with the given coefficients, constant term first (specification). -/
noncomputable def polyOf (p : ℕ) : List ℤ → (ZMod p)[X]
  | [] => 0
  | a :: l => C (a : ZMod p) + X * polyOf p l

theorem polyOf_degree (p : ℕ) : ∀ l : List ℤ, (polyOf p l).degree < l.length
  | [] => by simp [polyOf]
  | a :: l => by
    rw [polyOf, add_comm]
    refine lt_of_le_of_lt (degree_add_le _ _) ?_
    rw [max_lt_iff]
    have ih := polyOf_degree p l
    constructor
    · rcases eq_or_ne (polyOf p l) 0 with h | h
      · rw [h, mul_zero, degree_zero]; exact WithBot.bot_lt_coe _
      · refine lt_of_le_of_lt (degree_mul_le _ _) ?_
        have h1 : (X : (ZMod p)[X]).degree ≤ 1 := degree_X_le
        rw [degree_eq_natDegree h] at ih ⊢
        have ih' : (polyOf p l).natDegree < l.length := by exact_mod_cast ih
        calc (X : (ZMod p)[X]).degree + ((polyOf p l).natDegree : WithBot ℕ) ≤ 1 + ((polyOf p l).natDegree : WithBot ℕ) :=
              add_le_add h1 le_rfl
          _ < _ := by
            rw [List.length_cons]
            have : 1 + (polyOf p l).natDegree < l.length + 1 := by omega
            exact_mod_cast this
    · refine lt_of_le_of_lt degree_C_le ?_
      have : 0 < (a :: l).length := by simp
      exact_mod_cast this

theorem polyOf_eval (p : ℕ) (x : ZMod p) : ∀ l : List ℤ,
    (polyOf p l).eval x = ∑ i ∈ Finset.range l.length, ((l.getD i 0 : ℤ) : ZMod p) * x ^ i
  | [] => by simp [polyOf]
  | a :: l => by
    rw [polyOf, eval_add, eval_C, eval_mul, eval_X, polyOf_eval p x l, List.length_cons, Finset.sum_range_succ', Finset.mul_sum]
    simp only [List.getD_cons_succ, List.getD_cons_zero, pow_zero, mul_one]
    rw [add_comm]
    congr 1
    apply Finset.sum_congr rfl
    intro i _; ring

/-- A primitive root of order `2^(k+1)` has `2^k`-th power `-1`. -/
theorem prim_half {F : Type*} [Field F] {w : F} {k : ℕ} (h : IsPrimitiveRoot w (2 ^ k)) (k' : ℕ) (e : k = k' + 1) :
    w ^ 2 ^ k' = -1 := by
  subst e
  have h1 : (w ^ 2 ^ k') ^ 2 = 1 := by rw [← pow_mul, ← pow_succ]; exact h.pow_eq_one
  rcases sq_eq_one_iff_of_ne_neg_one_aux h1 with h2 | h2
  · exfalso
    have := h.dvd_of_pow_eq_one _ h2
    have h3 := Nat.le_of_dvd (by positivity) this
    rw [pow_succ] at h3
    have : 0 < 2 ^ k' := by positivity
    omega
  · exact h2
where
  sq_eq_one_iff_of_ne_neg_one_aux {a : F} (h : a ^ 2 = 1) : a = 1 ∨ a = -1 := sq_eq_one_iff_of_side_cond h
  sq_eq_one_iff_of_side_cond {a : F} (h : a ^ 2 = 1) : a = 1 ∨ a = -1 := by
    have : (a - 1) * (a + 1) = 0 := by linear_combination h
    rcases mul_eq_zero.mp this with h | h
    · exact Or.inl (sub_eq_zero.mp h)
    · exact Or.inr (eq_neg_of_add_eq_zero_left h)

/-- Orthogonality of the powers of a primitive root. -/
theorem prim_orth {F : Type*} [Field F] {w v : F} {n : ℕ} (h : IsPrimitiveRoot w n) (hv : v * w = 1) {a b : ℕ} (ha : a < n)
    (hb : b < n) : ∑ i ∈ Finset.range n, v ^ (i * a) * w ^ (i * b) = if a = b then (n : F) else 0 := by
  split
  · rename_i e
    subst e
    rw [Finset.sum_congr rfl fun i _ => by rw [← mul_pow, hv, one_pow]]
    simp
  · rename_i hne
    set z := v ^ a * w ^ b with hz
    have hsum : ∑ i ∈ Finset.range n, v ^ (i * a) * w ^ (i * b) = ∑ i ∈ Finset.range n, z ^ i := by
      apply Finset.sum_congr rfl
      intro i _
      rw [hz, mul_pow, ← pow_mul, ← pow_mul, mul_comm a, mul_comm b]
    have hvn : v ^ n = 1 := by
      have : (v * w) ^ n = 1 := by rw [hv, one_pow]
      rwa [mul_pow, h.pow_eq_one, mul_one] at this
    have hzn : z ^ n = 1 := by
      rw [hz, mul_pow, ← pow_mul, ← pow_mul, mul_comm a, mul_comm b, pow_mul, pow_mul, hvn, h.pow_eq_one]; simp
    have hz1 : z ≠ 1 := by
      intro e
      apply hne
      have h2 : w ^ a = w ^ b := by
        have h3 : w ^ a * z = w ^ b := by
          rw [hz, ← mul_assoc, ← mul_pow, mul_comm w v, hv]; simp
        rw [← h3, e, mul_one]
      exact h.pow_inj ha hb h2
    rw [hsum]
    have hg := geom_sum_mul z n
    rw [hzn, sub_self] at hg
    exact (mul_eq_zero.mp hg).resolve_right (sub_ne_zero.mpr hz1)

/-- Transform by `w`, entrywise. -/
theorem fft_evaluate_aux {p k : ℕ} [Fact p.Prime] {roots ys : List ℤ} {w : ZMod p} (hw : IsPrimitiveRoot w (2 ^ k))
    (hr : roots.length = 2 ^ k) (hrw : ∀ i < 2 ^ k, ((roots.getD i 0 : ℤ) : ZMod p) = w ^ i) (hy : ys.length = 2 ^ k) :
    ∃ out, fftInterpolate p (2 ^ k) roots ys false = some out ∧ out.length = 2 ^ k ∧
      ∀ j < 2 ^ k, ((out.getD j 0 : ℤ) : ZMod p) = (polyOf p ys).eval (w ^ j) := by
  refine ⟨_, by rw [fftInterpolate_eq hr.ge hy.ge]; rfl, by simp, fun j hj => ?_⟩
  rw [polyOf_eval, hy]
  simp only [List.getD_eq_getElem?_getD, List.getElem?_map, List.getElem?_range hj, Option.map_some, Option.getD_some]
  rw [fftF_sum k w _ _ j (prim_half hw) (by simpa only [List.getD_eq_getElem?_getD] using hrw) hj]
  apply Finset.sum_congr rfl
  intro i _
  rw [mul_comm i j, pow_mul]

theorem fft_interpolate_aux {p k : ℕ} [Fact p.Prime] (hodd : (2 : ZMod p) ≠ 0) {invroots ys : List ℤ} {w : ZMod p}
    (hw : IsPrimitiveRoot w (2 ^ k)) (hr : invroots.length = 2 ^ k)
    (hrw : ∀ i < 2 ^ k, ((invroots.getD i 0 : ℤ) : ZMod p) * w ^ i = 1) (hy : ys.length = 2 ^ k) :
    ∃ out, fftInterpolate p (2 ^ k) invroots ys true = some out ∧ out.length = 2 ^ k ∧ (∀ x ∈ out, Canon x p) ∧
      ∀ j < 2 ^ k, (polyOf p out).eval (w ^ j) = ((ys.getD j 0 : ℤ) : ZMod p) := by
  have hp : NeZero p := ⟨(Fact.out : p.Prime).ne_zero⟩
  have hn0 : ((2 ^ k : ℕ) : ZMod p) ≠ 0 := by push_cast; exact pow_ne_zero _ hodd
  obtain ⟨ni, hni⟩ := invmod_isSome (p := p) (a := ((2 ^ k : ℕ) : ℤ)) (by rw [Int.cast_natCast]; exact hn0)
  have hni' := invmod_some hni
  rw [Int.cast_natCast] at hni'
  set v : ZMod p := w⁻¹ with hv
  have hw0 : w ≠ 0 := hw.ne_zero (by positivity)
  have hvw : v * w = 1 := inv_mul_cancel₀ hw0
  have hvprim : IsPrimitiveRoot v (2 ^ k) := hw.inv
  have hrv : ∀ i < 2 ^ k, ((invroots.getD i 0 : ℤ) : ZMod p) = v ^ i := by
    intro i hi
    rw [hv, inv_pow]
    exact eq_inv_of_mul_eq_one_left (hrw i hi)
  refine ⟨_, by rw [fftInterpolate_eq hr.ge hy.ge, if_pos rfl, hni]; rfl, by simp, ?_, fun j hj => ?_⟩
  · intro x hx
    obtain ⟨y, -, rfl⟩ := List.mem_map.mp hx
    exact fmod_canon _
  · rw [polyOf_eval]
    simp only [List.length_map, List.length_range]
    have hco : ∀ i ∈ Finset.range (2 ^ k), ((((List.range (2 ^ k)).map (fftF p k (fun i => invroots.getD i 0) fun i => ys.getD i 0)).map
        fun x => fmod (x * ni) p).getD i 0 : ZMod p) * (w ^ j) ^ i =
        ∑ t ∈ Finset.range (2 ^ k), ((ys.getD t 0 : ℤ) : ZMod p) * ni * (v ^ (i * t) * w ^ (i * j)) := by
      intro i hi
      have hi' := Finset.mem_range.mp hi
      rw [List.getD_eq_getElem?_getD]
      simp only [List.getElem?_map, List.getElem?_range hi', Option.map_some, Option.getD_some]
      rw [fmod_cast, Int.cast_mul, fftF_sum k v _ _ i (prim_half hvprim) hrv hi', Finset.sum_mul, Finset.sum_mul]
      apply Finset.sum_congr rfl
      intro t _
      rw [mul_comm t i, ← pow_mul, mul_comm j i]; ring
    rw [Finset.sum_congr rfl hco, Finset.sum_comm]
    have : ∀ t ∈ Finset.range (2 ^ k), ∑ i ∈ Finset.range (2 ^ k), ((ys.getD t 0 : ℤ) : ZMod p) * ni * (v ^ (i * t) * w ^ (i * j)) =
        if t = j then ((ys.getD t 0 : ℤ) : ZMod p) else 0 := by
      intro t ht
      rw [← Finset.mul_sum, prim_orth hw hvw (Finset.mem_range.mp ht) hj]
      split
      · rw [mul_assoc, mul_comm (ni : ZMod p), hni', mul_one]
      · simp
    rw [Finset.sum_congr rfl this, Finset.sum_ite_eq' (Finset.range (2 ^ k)) j]
    rw [if_pos (Finset.mem_range.mpr hj)]

theorem intModulus_two_ne : (2 : ZMod intModulus) ≠ 0 := by
  intro h
  have h2 : ((2 : ℕ) : ZMod intModulus) = 0 := by exact_mod_cast h
  rw [ZMod.natCast_eq_zero_iff] at h2
  exact absurd (Nat.le_of_dvd (by norm_num) h2) (by decide)

/-! ## C28 -/

/-- With roots `w^0 … w^(n-1)` of a primitive `n`-th root of unity (`n = 2^k`), `fft_interpolate` without `invert` returns
the values of the coefficient polynomial at these roots. No array access is out of bounds. -/
theorem C28_evaluate {k : ℕ} {roots ys : List ℤ} {w : ZMod intModulus} (hw : IsPrimitiveRoot w (2 ^ k))
    (hr : roots.length = 2 ^ k) (hrw : ∀ i < 2 ^ k, ((roots.getD i 0 : ℤ) : ZMod intModulus) = w ^ i)
    (hy : ys.length = 2 ^ k) :
    ∃ out, fftInterpolate intModulus (2 ^ k) roots ys false = some out ∧ out.length = 2 ^ k ∧
      ∀ j < 2 ^ k, ((out.getD j 0 : ℤ) : ZMod intModulus) = (polyOf intModulus ys).eval (w ^ j) :=
  fft_evaluate_aux hw hr hrw hy

/-- With the inverse roots and `invert` it returns the canonical coefficients of the unique polynomial of degree less than
`n` through the points. -/
theorem C28_interpolate {k : ℕ} {invroots ys : List ℤ} {w : ZMod intModulus} (hw : IsPrimitiveRoot w (2 ^ k))
    (hr : invroots.length = 2 ^ k) (hrw : ∀ i < 2 ^ k, ((invroots.getD i 0 : ℤ) : ZMod intModulus) * w ^ i = 1)
    (hy : ys.length = 2 ^ k) :
    ∃ out, fftInterpolate intModulus (2 ^ k) invroots ys true = some out ∧ out.length = 2 ^ k ∧
      (∀ x ∈ out, Canon x intModulus) ∧
      (∀ j < 2 ^ k, (polyOf intModulus out).eval (w ^ j) = ((ys.getD j 0 : ℤ) : ZMod intModulus)) ∧
      ∀ q : (ZMod intModulus)[X], q.degree < (2 ^ k : ℕ) → (∀ j < 2 ^ k, q.eval (w ^ j) = ((ys.getD j 0 : ℤ) : ZMod intModulus)) →
        q = polyOf intModulus out := by
  obtain ⟨out, h1, h2, h3, h4⟩ := fft_interpolate_aux intModulus_two_ne hw hr hrw hy
  refine ⟨out, h1, h2, h3, h4, fun q hq hq' => ?_⟩
  have hd := polyOf_degree intModulus out
  rw [h2] at hd
  refine Polynomial.eq_of_degree_sub_lt_of_eval_finset_eq ((Finset.range (2 ^ k)).image fun j => w ^ j) ?_ ?_
  · rw [Finset.card_image_of_injOn]
    · rw [Finset.card_range]
      exact lt_of_le_of_lt (degree_sub_le _ _) (max_lt hq hd)
    · intro a ha b hb hab
      exact hw.pow_inj (by simpa using ha) (by simpa using hb) hab
  · intro x hx
    obtain ⟨j, hj, rfl⟩ := Finset.mem_image.mp hx
    have hj := Finset.mem_range.mp hj
    rw [hq' j hj, h4 j hj]

/-- Evaluation after interpolation gives the points back. -/
theorem C28_roundtrip {k : ℕ} {roots invroots ys : List ℤ} {w : ZMod intModulus} (hw : IsPrimitiveRoot w (2 ^ k))
    (hr : roots.length = 2 ^ k) (hrw : ∀ i < 2 ^ k, ((roots.getD i 0 : ℤ) : ZMod intModulus) = w ^ i)
    (hi : invroots.length = 2 ^ k) (hiw : ∀ i < 2 ^ k, ((invroots.getD i 0 : ℤ) : ZMod intModulus) * w ^ i = 1)
    (hy : ys.length = 2 ^ k) :
    ∃ c out, fftInterpolate intModulus (2 ^ k) invroots ys true = some c ∧
      fftInterpolate intModulus (2 ^ k) roots c false = some out ∧ out.length = ys.length ∧
      ∀ j < 2 ^ k, ((out.getD j 0 : ℤ) : ZMod intModulus) = ((ys.getD j 0 : ℤ) : ZMod intModulus) := by
  obtain ⟨c, h1, h2, -, h4, -⟩ := C28_interpolate hw hi hiw hy
  obtain ⟨out, g1, g2, g3⟩ := C28_evaluate hw hr hrw h2
  exact ⟨c, out, h1, g1, by rw [g2, hy], fun j hj => by rw [g3 j hj, h4 j hj]⟩

/-- The tables of `init_roots` (C02) meet the hypotheses. -/
theorem C28_tables {k : ℕ} {t : RootTables} (h : TablesOK intModulus (2 ^ k) t) : ∃ w v : ZMod intModulus,
    IsPrimitiveRoot w (2 ^ k) ∧ IsPrimitiveRoot v (2 ^ (k + 1)) ∧
    (∀ i < 2 ^ k, ((t.roots.getD i 0 : ℤ) : ZMod intModulus) = w ^ i) ∧
    (∀ i < 2 ^ k, ((t.invroots.getD i 0 : ℤ) : ZMod intModulus) * w ^ i = 1) ∧
    (∀ i < 2 ^ (k + 1), ((t.roots2.getD i 0 : ℤ) : ZMod intModulus) = v ^ i) ∧ ∀ i < 2 ^ k, w ^ i = v ^ (2 * i) := by
  obtain ⟨w, v, h1, h2, h3, h4, h5⟩ := h.prim
  have h2k : 2 * 2 ^ k = 2 ^ (k + 1) := by rw [pow_succ]; ring
  refine ⟨w, v, h1, h2k ▸ h2, ?_, ?_, ?_, ?_⟩
  · intro i hi
    have := h3 i hi
    rwa [List.getD_eq_getElem?_getD, List.getElem?_eq_getElem (by rw [h.len]; exact hi), Option.getD_some]
  · intro i hi
    have := h4 i hi
    rw [h3 i hi] at this
    rwa [List.getD_eq_getElem?_getD, List.getElem?_eq_getElem (by rw [h.lenInv]; exact hi), Option.getD_some]
  · intro i hi
    have hi' : i < 2 * 2 ^ k := by omega
    have := h5 i hi'
    rwa [List.getD_eq_getElem?_getD, List.getElem?_eq_getElem (by rw [h.len2]; exact hi'), Option.getD_some]
  · intro i hi
    have e := congrArg (fun z : ℤ => (z : ZMod intModulus)) (h.even i hi)
    rw [h3 i hi, h5 (2 * i) (by omega)] at e
    exact e.symm

/-- Non-vacuity: tables of size 4 exist, and `ys` of that length. -/
example : ∃ t w v, TablesOK intModulus (2 ^ 2) t ∧ IsPrimitiveRoot (w : ZMod intModulus) (2 ^ 2) ∧
    IsPrimitiveRoot (v : ZMod intModulus) (2 ^ 3) ∧ [(1 : ℤ), 2, 3, 4].length = 2 ^ 2 := by
  obtain ⟨t, -, h⟩ := initRoots_ok .start 2 (by norm_num) (by decide)
  obtain ⟨w, v, h1, h2, -⟩ := C28_tables h
  exact ⟨t, w, v, h, h1, h2, rfl⟩

/-- The arrays are accessed inside their bounds: element `i` behind the pointer exists exactly if `offset + i` is below the length; any other
read or write is undefined. With `C28_interpolate` and `C28_evaluate` (which give `some`) no access of a transform is out of bounds. -/
theorem C28_bounds (sz : FBuf → ℕ) (q : FPtr) (i : ℕ) (v : ℤ) (m : FMem) :
    (frd sz q i m = none ↔ sz q.1 ≤ q.2 + i) ∧ (fwr sz q i v m = none ↔ sz q.1 ≤ q.2 + i) := by
  unfold frd fwr
  constructor <;> split <;> simp <;> omega

end Verif

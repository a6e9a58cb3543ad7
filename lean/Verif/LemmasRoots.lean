import Verif.LemmasPrime
import Verif.LemmasFmpz

/-! Specification and lemmas for the root tables (C02). -/

namespace Verif

/-- What it means for a set of tables to be right for size `N` (stated with Mathlib's notion of primitive
root only). -/
structure TablesOK (p N : ℕ) (t : RootTables) : Prop where
  num : t.num = N
  len : t.roots.length = N
  lenInv : t.invroots.length = N
  len2 : t.roots2.length = 2 * N
  canon : ∀ x ∈ t.roots ++ t.invroots ++ t.roots2, Canon x p
  prim : ∃ w v : ZMod p, IsPrimitiveRoot w N ∧ IsPrimitiveRoot v (2 * N) ∧
    (∀ i (h : i < N), ((t.roots[i]'(by omega) : ℤ) : ZMod p) = w ^ i) ∧
    (∀ i (h : i < N), ((t.invroots[i]'(by omega) : ℤ) : ZMod p) * ((t.roots[i]'(by omega) : ℤ) : ZMod p) = 1) ∧
    (∀ i (h : i < 2 * N), ((t.roots2[i]'(by omega) : ℤ) : ZMod p) = v ^ i)
  even : ∀ i (h : i < N), t.roots2[2 * i]'(by omega) = t.roots[i]'(by omega)
  nodup : t.roots.Nodup
  nodup2 : t.roots2.Nodup

/-! ## Helper lemmas on the tables -/

theorem rootEntry_cast {p : ℕ} (w : ℤ) (i : ℕ) : ((rootEntry p w i : ℤ) : ZMod p) = (w : ZMod p) ^ i := by
  induction i with
  | zero => simp [rootEntry]
  | succ i ih => simp [rootEntry, ih, pow_succ]

theorem rootEntry_canon {p : ℕ} [NeZero p] (hp : 1 < p) (w : ℤ) (i : ℕ) : Canon (rootEntry p w i) p := by
  cases i with
  | zero => exact canon_one hp
  | succ i => exact fmod_canon _

@[simp] theorem rootTable_length (p : ℕ) (w : ℤ) (n : ℕ) : (rootTable p w n).length = n := by
  simp [rootTable]

theorem rootTable_getElem (p : ℕ) (w : ℤ) (n i : ℕ) (h : i < n) :
    (rootTable p w n)[i]'(by simpa using h) = rootEntry p w i := by
  simp [rootTable]

theorem table_nodup {p : ℕ} [NeZero p] (w : ℤ) (n : ℕ)
    (h : IsPrimitiveRoot (w : ZMod p) n) : (rootTable p w n).Nodup := by
  unfold rootTable
  refine List.Nodup.map_on ?_ List.nodup_range
  intro i hi j hj hij
  have := congrArg (fun z : ℤ => (z : ZMod p)) hij
  simp only [rootEntry_cast] at this
  exact h.pow_inj (by simpa using hi) (by simpa using hj) this

theorem gen_step_prim (k : ℕ) (hk : k ≤ 19) :
    IsPrimitiveRoot (((powm intGen (2 ^ 19 / 2 ^ k) intModulus : ℤ)) : ZMod intModulus) (2 ^ k) := by
  have hg : IsPrimitiveRoot ((intGen : ℕ) : ZMod intModulus) (2 ^ 19) := by
    rw [← intGen_orderOf]; exact IsPrimitiveRoot.orderOf _
  have : (2 : ℕ) ^ 19 = (2 ^ 19 / 2 ^ k) * 2 ^ k := by
    rw [Nat.div_mul_cancel (pow_dvd_pow 2 hk)]
  have h2 := hg.pow (by positivity) this
  simpa using h2

theorem initRoots_ok (st : RootTables) (k : ℕ) (hk : k ≤ 18) (hst : st.num ≠ 2 ^ k) :
    ∃ t, initRoots intModulus intGen twoOrder st (2 ^ k) = some t ∧ TablesOK intModulus (2 ^ k) t := by
  have hp1 : 1 < intModulus := by decide
  have : NeZero intModulus := ⟨by decide⟩
  have hgne : (((intGen : ℕ) : ℤ) : ZMod intModulus) ≠ 0 := by
    intro h
    have := intGen_half
    simp at h
    rw [h] at this
    simp at this
  obtain ⟨gi, hgi⟩ := invmod_isSome hgne
  have hpos : 0 < 2 ^ k := by positivity
  unfold initRoots
  rw [if_neg hst, if_neg hpos.ne', hgi]
  refine ⟨_, rfl, ?_⟩
  have hw := gen_step_prim k (by omega)
  have hhalf : 2 ^ twoOrder / 2 ^ k / 2 = 2 ^ 19 / 2 ^ (k + 1) := by
    rw [Nat.div_div_eq_div_mul, pow_succ]; rfl
  have hv := gen_step_prim (k + 1) (by omega)
  have h2k : 2 * 2 ^ k = 2 ^ (k + 1) := by rw [pow_succ]; ring
  refine ⟨rfl, by simp, by simp, by simp, ?_, ?_, ?_, ?_, ?_⟩
  · intro x hx
    simp only [rootTable, List.mem_append, List.mem_map] at hx
    rcases hx with (⟨i, _, rfl⟩ | ⟨i, _, rfl⟩) | ⟨i, _, rfl⟩ <;> exact rootEntry_canon hp1 _ _
  · refine ⟨_, ((powm intGen (2 ^ twoOrder / 2 ^ k / 2) intModulus : ℤ) : ZMod intModulus), hw,
      ?_, ?_, ?_, ?_⟩
    · rw [hhalf, h2k]; exact hv
    · intro i hi
      rw [rootTable_getElem _ _ _ _ hi, rootEntry_cast]; rfl
    · intro i hi
      rw [rootTable_getElem _ _ _ _ hi, rootTable_getElem _ _ _ _ hi, rootEntry_cast, rootEntry_cast]
      rw [powm_cast, powm_cast, ← mul_pow, ← mul_pow, mul_comm, invmod_some hgi]
      simp
    · intro i hi
      rw [rootTable_getElem _ _ _ _ hi, rootEntry_cast]
  · intro i hi
    have h2i : 2 * i < 2 * 2 ^ k := by omega
    rw [rootTable_getElem _ _ _ _ h2i, rootTable_getElem _ _ _ _ hi]
    apply canon_eq_of_cast (rootEntry_canon hp1 _ _) (rootEntry_canon hp1 _ _)
    rw [rootEntry_cast, rootEntry_cast, powm_cast, powm_cast, ← pow_mul, ← pow_mul, hhalf]
    congr 1
    have : 2 ^ 19 / 2 ^ k = 2 ^ 19 / 2 ^ (k + 1) * 2 := by
      rw [Nat.pow_div (by omega) (by norm_num), Nat.pow_div (by omega) (by norm_num), ← pow_succ]
      congr 1; omega
    show _ = 2 ^ 19 / 2 ^ k * i
    rw [this]; ring
  · exact table_nodup _ _ hw
  · show (rootTable _ _ _).Nodup
    rw [hhalf, h2k]; exact table_nodup _ _ hv

end Verif

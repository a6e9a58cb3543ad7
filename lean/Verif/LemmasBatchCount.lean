import Verif.PropsRobustSnip
import Verif.PropsForge

/-! # Counting the choices of check point and coefficients for a whole batch -/

namespace Verif

variable {p : ℕ} [NeZero p]

/-- The choices for a batch of `M` submissions: the check point and, for each submission, `K + 1` coefficients. There are `p^((K+1)*M+1)`. -/
abbrev BatchDraws (p K M : ℕ) : Type := ZMod p × (Fin M → Fin (K + 1) → ZMod p)

theorem batchDraws_card (p : ℕ) [NeZero p] (K M : ℕ) : Fintype.card (BatchDraws p K M) = p ^ ((K + 1) * M + 1) := by
  rw [Fintype.card_prod, Fintype.card_fun, Fintype.card_fun, ZMod.card, Fintype.card_fin, Fintype.card_fin, ← pow_mul, pow_succ, mul_comm]

/-- The coefficients of one submission as integers. -/
def coefList {p K : ℕ} (c : Fin (K + 1) → ZMod p) : List ℤ := List.ofFn fun j => ((c j).val : ℤ)

theorem coefList_inj {K : ℕ} : Function.Injective (coefList (p := p) (K := K)) := by
  intro c c' h
  funext j
  have := congrFun (List.ofFn_injective h) j
  exact ZMod.val_injective _ (by exact_mod_cast this)

theorem coefList_draw {K : ℕ} (c : Fin (K + 1) → ZMod p) : (coefList c).length = K + 1 ∧ ∀ y ∈ coefList c, IsDraw y p := by
  refine ⟨List.length_ofFn, fun y hy => ?_⟩
  obtain ⟨j, rfl⟩ := (List.mem_ofFn' _ _).1 hy
  exact ⟨Int.natCast_nonneg _, Int.ofNat_lt.2 (ZMod.val_lt _)⟩

/-- The lists of draws are finitely many. -/
theorem draws_finite (k : ℕ) : {cs : List ℤ | cs.length = k ∧ ∀ y ∈ cs, IsDraw y p}.Finite := by
  refine (Set.toFinite ((fun f : Fin k → ZMod p => List.ofFn fun j => ((f j).val : ℤ)) '' Set.univ)).subset ?_
  rintro cs ⟨hl, hd⟩
  refine ⟨fun j => ((cs.getD j 0 : ℤ) : ZMod p), Set.mem_univ _, ?_⟩
  apply List.ext_getElem (by simp [hl])
  intro i h1 h2
  obtain ⟨a, b⟩ := hd _ (List.getElem_mem h2)
  have e : cs[i] = ((cs[i].toNat : ℕ) : ℤ) := (Int.toNat_of_nonneg a).symm
  simp only [List.getElem_ofFn, List.getD_eq_getElem?_getD, List.getElem?_eq_getElem h2, Option.getD_some]
  rw [e, Int.cast_natCast, ZMod.val_natCast, Nat.mod_eq_of_lt (by omega)]

open Classical in
/-- One event that depends on the check point and on one submission's coefficients. -/
theorem event_count {K M : ℕ} (i : Fin M) (Ev : ℤ → List ℤ → Prop) {B : ℕ} {bad : Finset (ZMod p)} (hb : bad.card ≤ B)
    (h : ∀ x : ℤ, Canon x p → (x : ZMod p) ∉ bad →
      {cs : List ℤ | cs.length = K + 1 ∧ (∀ y ∈ cs, IsDraw y p) ∧ Ev x cs}.ncard = p ^ K) :
    (Finset.univ.filter fun ω : BatchDraws p K M => Ev (ω.1.val : ℤ) (coefList (ω.2 i))).card ≤ (B + 1) * p ^ ((K + 1) * M) := by
  have hM : 0 < M := i.pos
  -- the choices at bad points
  have h1 : (Finset.univ.filter fun ω : BatchDraws p K M => ω.1 ∈ bad).card ≤ B * p ^ ((K + 1) * M) := by
    have e : (Finset.univ.filter fun ω : BatchDraws p K M => ω.1 ∈ bad) = bad ×ˢ Finset.univ := by ext ω; simp
    rw [e, Finset.card_product, Finset.card_univ, Fintype.card_fun, Fintype.card_fun, ZMod.card, Fintype.card_fin, Fintype.card_fin, ← pow_mul]
    exact Nat.mul_le_mul_right _ hb
  -- the others
  let T : ZMod p → Finset (Fin (K + 1) → ZMod p) := fun x => Finset.univ.filter fun c => x ∉ bad ∧ Ev (x.val : ℤ) (coefList c)
  have hT : ∀ x, (T x).card ≤ p ^ K := by
    intro x
    by_cases hx : x ∈ bad
    · have : T x = ∅ := by simp [T, hx]
      rw [this]; simp
    · have hc : Canon (x.val : ℤ) p := ⟨Int.natCast_nonneg _, Int.ofNat_lt.2 (ZMod.val_lt _)⟩
      have hx' : (((x.val : ℕ) : ℤ) : ZMod p) = x := by rw [Int.cast_natCast, ZMod.natCast_zmod_val]
      rw [← h _ hc (by rw [hx']; exact hx), ← Set.ncard_coe_finset]
      refine Set.ncard_le_ncard_of_injOn coefList ?_ (coefList_inj.injOn) ?_
      · intro c hcm
        have hcm : c ∈ T x := hcm
        rw [Finset.mem_filter] at hcm
        exact ⟨(coefList_draw c).1, (coefList_draw c).2, hcm.2.2⟩
      · exact (draws_finite (K + 1)).subset fun cs h => ⟨h.1, h.2.1⟩
  have h2 : (Finset.univ.filter fun ω : BatchDraws p K M => ω.1 ∉ bad ∧ Ev (ω.1.val : ℤ) (coefList (ω.2 i))).card ≤ p ^ ((K + 1) * M) := by
    let e := Equiv.funSplitAt i (Fin (K + 1) → ZMod p)
    let S : Finset ((_ : ZMod p) × ((Fin (K + 1) → ZMod p) × ({j // j ≠ i} → Fin (K + 1) → ZMod p))) :=
      Finset.univ.sigma fun x => T x ×ˢ Finset.univ
    have hle : (Finset.univ.filter fun ω : BatchDraws p K M => ω.1 ∉ bad ∧ Ev (ω.1.val : ℤ) (coefList (ω.2 i))).card ≤ S.card := by
      refine Finset.card_le_card_of_injOn (fun ω => ⟨ω.1, e ω.2⟩) ?_ ?_
      · intro ω hω
        have hω : ω ∈ Finset.univ.filter fun ω : BatchDraws p K M => ω.1 ∉ bad ∧ Ev (ω.1.val : ℤ) (coefList (ω.2 i)) := hω
        rw [Finset.mem_filter] at hω
        show _ ∈ S
        simp only [S, Finset.mem_sigma, Finset.mem_univ, true_and, Finset.mem_product, and_true, T, Finset.mem_filter]
        exact hω.2
      · intro ω _ ω' _ hh
        simp only [Sigma.mk.injEq] at hh
        exact Prod.ext hh.1 (e.injective (eq_of_heq hh.2))
    refine hle.trans ?_
    rw [Finset.card_sigma]
    calc ∑ x, (T x ×ˢ (Finset.univ : Finset ({j // j ≠ i} → Fin (K + 1) → ZMod p))).card
        ≤ ∑ _x : ZMod p, p ^ K * (p ^ (K + 1)) ^ (M - 1) := by
          refine Finset.sum_le_sum fun x _ => ?_
          rw [Finset.card_product, Finset.card_univ, Fintype.card_fun, Fintype.card_fun, ZMod.card, Fintype.card_fin, Fintype.card_subtype_compl,
            Fintype.card_fin, Fintype.card_subtype_eq]
          exact Nat.mul_le_mul_right _ (hT x)
      _ = p ^ ((K + 1) * M) := by
          rw [Finset.sum_const, Finset.card_univ, ZMod.card, smul_eq_mul, ← mul_assoc, ← pow_succ', ← pow_succ', pow_mul, Nat.sub_add_cancel hM]
  have hsub : (Finset.univ.filter fun ω : BatchDraws p K M => Ev (ω.1.val : ℤ) (coefList (ω.2 i))) ⊆
      (Finset.univ.filter fun ω : BatchDraws p K M => ω.1 ∈ bad) ∪
        Finset.univ.filter fun ω : BatchDraws p K M => ω.1 ∉ bad ∧ Ev (ω.1.val : ℤ) (coefList (ω.2 i)) := by
    intro ω hω
    simp only [Finset.mem_filter, Finset.mem_univ, true_and, Finset.mem_union] at hω ⊢
    tauto
  refine (Finset.card_le_card hsub).trans ((Finset.card_union_le _ _).trans ?_)
  rw [add_mul, one_mul]
  exact Nat.add_le_add h1 h2

open Classical in
/-- The union bound over the submissions of a batch. -/
theorem batch_count {κ : Type} {K M : ℕ} (S : Finset κ) (idx : κ → ℕ) (hidx : ∀ k ∈ S, idx k < M) (Ev : κ → ℤ → List ℤ → Prop) {B : ℕ}
    (h : ∀ k ∈ S, ∃ bad : Finset (ZMod p), bad.card ≤ B ∧ ∀ x : ℤ, Canon x p → (x : ZMod p) ∉ bad →
      {cs : List ℤ | cs.length = K + 1 ∧ (∀ y ∈ cs, IsDraw y p) ∧ Ev k x cs}.ncard = p ^ K) :
    ∃ Bad : Finset (BatchDraws p K M), Bad.card ≤ S.card * ((B + 1) * p ^ ((K + 1) * M)) ∧
      ∀ ω ∉ Bad, ∀ (k : κ) (hk : k ∈ S), ¬ Ev k (ω.1.val : ℤ) (coefList (ω.2 ⟨idx k, hidx k hk⟩)) := by
  refine ⟨S.attach.biUnion fun k => Finset.univ.filter fun ω : BatchDraws p K M =>
    Ev k.1 (ω.1.val : ℤ) (coefList (ω.2 ⟨idx k.1, hidx k.1 k.2⟩)), ?_, fun ω hω k hk hev => ?_⟩
  · refine Finset.card_biUnion_le.trans ?_
    calc _ ≤ ∑ _k ∈ S.attach, (B + 1) * p ^ ((K + 1) * M) := by
          refine Finset.sum_le_sum fun k _ => ?_
          obtain ⟨bad, hb, h⟩ := h k.1 k.2
          exact event_count _ (Ev k.1) hb h
      _ = _ := by rw [Finset.sum_const, Finset.card_attach, smul_eq_mul]
  · apply hω
    rw [Finset.mem_biUnion]
    exact ⟨⟨k, hk⟩, Finset.mem_attach _ _, Finset.mem_filter.2 ⟨Finset.mem_univ _, hev⟩⟩

end Verif

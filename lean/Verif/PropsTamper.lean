import Verif.LemmasTamper
import Verif.PropsRobustSound

/-! # C69: which proofs pass the check, and what happens to damaged ones -/

namespace Verif

open Polynomial

/-- The two packets add up to packets that an honest client with the wires `w` makes for some draws. -/
def Genuine (c : Circuit) (w : List ℤ) (t : RootTables) (pk0 pk1 : Packet) : Prop :=
  ∃ r q0 q1, ValidRand intModulus c r ∧ sharePolynomials intModulus c w t r = some (q0, q1) ∧ SameSums pk0 pk1 q0 q1

/-- The packet sizes of an honest client. -/
theorem client_packets {c : Circuit} (hc : CircOk c) {inps w : List ℤ} {b : Bool} (hev : c.eval intModulus inps = some (w, b)) {t : RootTables}
    {l : List ℕ} (hrc : RootCalls (npow2 c.mulGates.length :: l) t) {r : SnipRand} (hr : ValidRand intModulus c r) {pk0 pk1 : Packet}
    (hpk : sharePolynomials intModulus c w t r = some (pk0, pk1)) :
    HonestPackets intModulus c w (nodeF intModulus t.roots) (nodeF intModulus t.roots2) r pk0 pk1 ∧ PacketOk c pk0 ∧ PacketOk c pk1 ∧
      (pk0.triple.A + pk1.triple.A : ZMod intModulus) = r.A ∧ (pk0.triple.B + pk1.triple.B : ZMod intModulus) = r.B := by
  have ht := (C02_tables_after_any_history _ _ hrc).1 _ _ rfl
  rw [Circuit.eval, Option.bind_eq_some_iff] at hev
  obtain ⟨w', hw, hz⟩ := hev
  rw [Option.map_eq_some_iff] at hz
  obtain ⟨zs, -, hz2⟩ := hz
  obtain ⟨rfl, -⟩ : w' = w ∧ (zs.all fun x => decide (x = 0)) = b := by simpa using hz2
  obtain ⟨hwl, -⟩ := evalGates_all hw
  obtain ⟨q0, q1, e, hon⟩ := client_spec intModulus_two_ne hc.wf hwl ht hr.lh hr.lm
  obtain ⟨hv, -, hform, -⟩ := client_form intModulus_two_ne hc.wf hwl ht r.f0 r.g0
  have e' := hform r rfl rfl
  rw [hpk] at e e'
  cases e
  cases e'
  exact ⟨hon, ⟨hon.m0, hon.h0⟩, ⟨hon.m1, hon.h1⟩, by simp, by simp⟩

/-- C69. For every input, valid or not, and every pair of packets of the right size: if the input satisfies the circuit and the packets add up to
those of an honest client, the submission passes at every check point and for all coefficients. Otherwise there are at most `2N` bad check points,
and at every other exactly one in `p` of the lists of coefficients lets it through. -/
theorem C69_dichotomy {c : Circuit} (hc : CircOk c) {inps w : List ℤ} {b : Bool} (hev : c.eval intModulus inps = some (w, b))
    (hcan : ∀ v ∈ inps, Canon v intModulus) {pk0 pk1 : Packet} (h0 : PacketOk c pk0) (h1 : PacketOk c pk1) {t : RootTables} {l : List ℕ}
    (hrc : RootCalls (npow2 c.mulGates.length :: l) t) :
    (b = true → Genuine c w t pk0 pk1 → ∀ x, Canon x intModulus → ∀ cs : List ℤ, c.resultZero.length + 1 ≤ cs.length →
      Accepts c x cs inps pk0 pk1) ∧
    (¬ (b = true ∧ Genuine c w t pk0 pk1) → Refused c inps pk0 pk1) := by
  have hin : nIn c.gates ≤ inps.length := by
    rw [Circuit.eval, Option.bind_eq_some_iff] at hev
    obtain ⟨w', hw, -⟩ := hev
    exact nIn_le_of_eval hw
  constructor
  · rintro rfl ⟨r, q0, q1, hr, hq, hs⟩ x hx cs hcs
    obtain ⟨-, g0, g1, -⟩ := client_packets hc hev hrc hr hq
    rw [accepts_sums hc hin h0 h1 g0 g1 hs hx hcs]
    exact accepts_honest hc.wf hev rfl (fun _ _ => rfl) hrc hr.lh hr.lm hq hx hcs
  · intro hng
    rcases b with _ | _
    · exact accepts_count hc hev hcan h0 h1
    obtain ⟨w0, e0⟩ := import_total hc.wf false hin h0.m
    obtain ⟨w1, e1⟩ := import_total hc.wf true (inps := List.replicate inps.length 0) (by simpa using hin) h1.m
    refine refused_of hc h0 h1 hrc e0 e1 fun hP => hng ⟨rfl, ?_⟩
    let r : SnipRand := ⟨fmod (pk0.f0 + pk1.f0) intModulus, fmod (pk0.g0 + pk1.g0) intModulus, List.replicate (npow2 c.mulGates.length) 0, 0, 0, 0,
      List.replicate c.mulGates.length 0, fmod (pk0.triple.A + pk1.triple.A) intModulus, fmod (pk0.triple.B + pk1.triple.B) intModulus, 0, 0, 0⟩
    have hd : IsDraw 0 intModulus := ⟨le_rfl, by decide⟩
    have hr : ValidRand intModulus c r :=
      ⟨List.length_replicate, List.length_replicate, fun y hy => (List.eq_of_mem_replicate hy) ▸ hd, fun y hy => (List.eq_of_mem_replicate hy) ▸ hd,
        ⟨hd, hd, hd⟩, fmod_canon _, fmod_canon _, hd, hd, hd⟩
    have hon := honest_of_zero hc hev h0 h1 hrc e0 e1 hP (r := r) (by simp [r]) (by simp [r])
    obtain ⟨q0, q1, -, -, -, -, -, hq, -⟩ := C30_accept hc.wf hev rfl (i1 := List.replicate inps.length 0) (by simp) (fun k _ => by
      rw [at0_zeros]; simp) hrc hrc hr.lh hr.lm (x := 0) ⟨le_rfl, by decide⟩ (cs := List.replicate (c.resultZero.length + 1) 0) (by simp)
    obtain ⟨hon', g0, g1, hA, hB⟩ := client_packets hc hev hrc hr hq
    refine ⟨r, q0, q1, hr, hq, ?_⟩
    have ov : ∀ {a b : List ℤ} {n : ℕ}, a.length = n → b.length = n → ∀ i, n ≤ i → nodeF intModulus a i + nodeF intModulus b i = 0 := by
      intro a b n ha hb i hi
      unfold nodeF
      rw [List.getD_eq_default _ _ (by omega), List.getD_eq_default _ _ (by omega)]
      simp
    refine ⟨fun i => ?_, by rw [hon.f0, hon'.f0], by rw [hon.g0, hon'.g0], by rw [hon.hc, hon'.hc], fun j => ?_, ?_, ?_, ?_⟩
    · rcases lt_or_ge i c.mulGates.length with hi | hi
      · rw [hon.mul i hi, hon'.mul i hi]
      · rw [ov h0.m h1.m i hi, ov g0.m g1.m i hi]
    · rcases lt_or_ge j (npow2 c.mulGates.length) with hj | hj
      · rw [hon.hs j hj, hon'.hs j hj]
      · rw [ov h0.h h1.h j hj, ov g0.h g1.h j hj]
    · rw [hA]; simp [r]
    · rw [hB]; simp [r]
    · rw [hon.tr, hon'.tr, hA, hB]; simp [r]

/-! ## Damaged proofs -/

section

variable {c : Circuit} (hc : CircOk c) {inps w : List ℤ} (hev : c.eval intModulus inps = some (w, true))
  (hcan : ∀ v ∈ inps, Canon v intModulus) {t : RootTables} {l : List ℕ} (hrc : RootCalls (npow2 c.mulGates.length :: l) t)
  {r : SnipRand} (hr : ValidRand intModulus c r) {pk0 pk1 q0 q1 : Packet} (hpk : sharePolynomials intModulus c w t r = some (pk0, pk1))
  (g0 : PacketOk c q0) (g1 : PacketOk c q1)

include hc hev hcan hrc hr hpk g0 g1

/-- A change of the shares of products: refused, whatever else is changed. -/
theorem C69_products {i : ℕ} (hne : nodeF intModulus q0.mulShares i + nodeF intModulus q1.mulShares i ≠
      nodeF intModulus pk0.mulShares i + nodeF intModulus pk1.mulShares i) : Refused c inps q0 q1 := by
  refine (C69_dichotomy hc hev hcan g0 g1 hrc).2 ?_
  rintro ⟨-, r', p0, p1, hr', hp, hs⟩
  obtain ⟨hon, k0, k1, -⟩ := client_packets hc hev hrc hr hpk
  obtain ⟨hon', k0', k1', -⟩ := client_packets hc hev hrc hr' hp
  apply hne
  rw [hs.mul i]
  rcases lt_or_ge i c.mulGates.length with hi | hi
  · rw [hon.mul i hi, hon'.mul i hi]
  · unfold nodeF
    rw [List.getD_eq_default _ _ (by rw [k0'.m]; exact hi), List.getD_eq_default _ _ (by rw [k1'.m]; exact hi),
      List.getD_eq_default _ _ (by rw [k0.m]; exact hi), List.getD_eq_default _ _ (by rw [k1.m]; exact hi)]

/-- A change of the values of `h` only: refused. -/
theorem C69_h (hf : (q0.f0 + q1.f0 : ZMod intModulus) = pk0.f0 + pk1.f0) (hg : (q0.g0 + q1.g0 : ZMod intModulus) = pk0.g0 + pk1.g0)
    (hne : (q0.h0 + q1.h0 : ZMod intModulus) ≠ pk0.h0 + pk1.h0 ∨ ∃ j < npow2 c.mulGates.length,
      nodeF intModulus q0.hPoints j + nodeF intModulus q1.hPoints j ≠ nodeF intModulus pk0.hPoints j + nodeF intModulus pk1.hPoints j) :
    Refused c inps q0 q1 := by
  refine (C69_dichotomy hc hev hcan g0 g1 hrc).2 ?_
  rintro ⟨-, r', p0, p1, hr', hp, hs⟩
  obtain ⟨hon, -⟩ := client_packets hc hev hrc hr hpk
  obtain ⟨hon', -⟩ := client_packets hc hev hrc hr' hp
  have ef : (r'.f0 : ZMod intModulus) = r.f0 := by rw [← hon.f0, ← hon'.f0, ← hs.f0, hf]
  have eg : (r'.g0 : ZMod intModulus) = r.g0 := by rw [← hon.g0, ← hon'.g0, ← hs.g0, hg]
  rcases hne with hne | ⟨j, hj, hne⟩
  · exact hne (by rw [hs.h0, hon.hc, hon'.hc, ef, eg])
  · exact hne (by rw [hs.hs, hon.hs j hj, hon'.hs j hj, ef, eg])

omit hr hpk in
/-- A change of the triple after which it is no longer a product: refused, whatever else is changed. -/
theorem C69_triple (hne : (q0.triple.C + q1.triple.C : ZMod intModulus) ≠ (q0.triple.A + q1.triple.A) * (q0.triple.B + q1.triple.B)) :
    Refused c inps q0 q1 := by
  refine (C69_dichotomy hc hev hcan g0 g1 hrc).2 ?_
  rintro ⟨-, r', p0, p1, hr', hp, hs⟩
  obtain ⟨hon', -⟩ := client_packets hc hev hrc hr' hp
  exact hne (by rw [hs.A, hs.B, hs.C, hon'.tr])

/-- A change of `a` only: refused unless `b` is zero. -/
theorem C69_triple_a (hA : (q0.triple.A + q1.triple.A : ZMod intModulus) ≠ pk0.triple.A + pk1.triple.A)
    (hB : (q0.triple.B + q1.triple.B : ZMod intModulus) = pk0.triple.B + pk1.triple.B)
    (hC : (q0.triple.C + q1.triple.C : ZMod intModulus) = pk0.triple.C + pk1.triple.C) (hb : (r.B : ZMod intModulus) ≠ 0) : Refused c inps q0 q1 := by
  obtain ⟨hon, -, -, eA, eB⟩ := client_packets hc hev hrc hr hpk
  refine C69_triple hc hev hcan hrc g0 g1 fun h => hA ?_
  rw [hC, hon.tr, hB, eB] at h
  exact (mul_right_cancel₀ hb h).symm

/-- A change of `f(0)` only: refused unless `g` is zero. -/
theorem C69_f0 (hf : (q0.f0 + q1.f0 : ZMod intModulus) ≠ pk0.f0 + pk1.f0) (hg : (q0.g0 + q1.g0 : ZMod intModulus) = pk0.g0 + pk1.g0)
    (hh : (q0.h0 + q1.h0 : ZMod intModulus) = pk0.h0 + pk1.h0)
    (hhs : ∀ j < npow2 c.mulGates.length,
      nodeF intModulus q0.hPoints j + nodeF intModulus q1.hPoints j = nodeF intModulus pk0.hPoints j + nodeF intModulus pk1.hPoints j)
    (hnz : (r.g0 : ZMod intModulus) ≠ 0 ∨ ∃ i < c.mulGates.length, wireF intModulus w (c.parR (c.mg i)) ≠ 0) : Refused c inps q0 q1 := by
  refine (C69_dichotomy hc hev hcan g0 g1 hrc).2 ?_
  rintro ⟨-, r', p0, p1, hr', hp, hs⟩
  obtain ⟨hon, -⟩ := client_packets hc hev hrc hr hpk
  obtain ⟨hon', -⟩ := client_packets hc hev hrc hr' hp
  have ht := (C02_tables_after_any_history _ _ hrc).1 _ _ rfl
  have hn := npow2_gt c.mulGates.length
  obtain ⟨-, -, nodes⟩ := tables_nodes (by omega) ht
  have eg : (r'.g0 : ZMod intModulus) = r.g0 := by rw [← hon.g0, ← hon'.g0, ← hs.g0, hg]
  have efne : (r'.f0 : ZMod intModulus) ≠ r.f0 := by rw [← hon.f0, ← hon'.f0, ← hs.f0]; exact hf
  set F : ZMod intModulus → (ZMod intModulus)[X] := fun a => polyFG c.mulGates.length (npow2 c.mulGates.length) (nodeF intModulus t.roots) a
    fun i => wireF intModulus w (c.parL (c.mg i)) with hF
  set G := polyFG c.mulGates.length (npow2 c.mulGates.length) (nodeF intModulus t.roots) (r.g0 : ZMod intModulus)
    fun i => wireF intModulus w (c.parR (c.mg i)) with hG
  have hval : ∀ (a : ZMod intModulus) (u : ℕ → ZMod intModulus), ∀ i < npow2 c.mulGates.length,
      (polyFG c.mulGates.length (npow2 c.mulGates.length) (nodeF intModulus t.roots) a u).eval (nodeF intModulus t.roots i) =
        fPts c.mulGates.length a u i := fun a u i hi =>
    Lagrange.eval_interpolate_at_node _ nodes.injW (Finset.mem_range.mpr hi)
  -- the two products have the same points
  have hprod : F r.f0 * G = F r'.f0 * G := by
    have hz : ∀ i ∈ Finset.range (2 * npow2 c.mulGates.length), (F r.f0 * G).eval (nodeF intModulus t.roots2 i) =
        (F r'.f0 * G).eval (nodeF intModulus t.roots2 i) := by
      intro i hi
      have hi := Finset.mem_range.1 hi
      rw [eval_mul, eval_mul]
      rcases Nat.even_or_odd' i with ⟨j, rfl | rfl⟩
      · rw [nodes.even j (by omega), hval _ _ _ (by omega), hval _ _ _ (by omega), hval _ _ _ (by omega)]
        rcases Nat.eq_zero_or_pos j with rfl | hj
        · have : (r.f0 : ZMod intModulus) * r.g0 = r'.f0 * r.g0 := by
            rw [← hon.hc, ← eg, ← hon'.hc, ← hs.h0, hh]
          simpa [fPts] using this
        · simp only [fPts, if_neg (by omega : ¬ j = 0)]
      · have h1 := hon.hs j (by omega)
        have h2 := hon'.hs j (by omega)
        rw [← hs.hs, hhs j (by omega), h1, eg] at h2
        exact h2
    refine Polynomial.eq_of_degrees_lt_of_eval_index_eq (s := Finset.range (2 * npow2 c.mulGates.length)) (v := nodeF intModulus t.roots2)
      nodes.injV ?_ ?_ hz
    · rw [Finset.card_range]; exact degree_mul_lt_two (polyFG_degree nodes.injW _ _) (polyFG_degree nodes.injW _ _)
    · rw [Finset.card_range]; exact degree_mul_lt_two (polyFG_degree nodes.injW _ _) (polyFG_degree nodes.injW _ _)
  have hFne : F r.f0 ≠ F r'.f0 := by
    intro h
    have := congrArg (eval (nodeF intModulus t.roots 0)) h
    rw [hval _ _ _ (by omega), hval _ _ _ (by omega)] at this
    exact efne (by simpa [fPts] using this.symm)
  have hG0 : G = 0 := by
    by_contra h
    exact hFne (mul_right_cancel₀ h hprod)
  rcases hnz with h | ⟨i, hi, h⟩
  · have := hval (r.g0 : ZMod intModulus) (fun i => wireF intModulus w (c.parR (c.mg i))) 0 (by omega)
    rw [← hG, hG0, eval_zero] at this
    exact h (by simpa [fPts] using this.symm)
  · have := hval (r.g0 : ZMod intModulus) (fun i => wireF intModulus w (c.parR (c.mg i))) (i + 1) (by omega)
    rw [← hG, hG0, eval_zero] at this
    simp only [fPts, if_neg (Nat.succ_ne_zero i), Nat.add_sub_cancel, if_pos hi] at this
    exact h this.symm

end

theorem nodeF_bump {xs : List ℤ} {j : ℕ} (hj : j < xs.length) : nodeF intModulus (xs.modify j (· + 1)) j = nodeF intModulus xs j + 1 := by
  unfold nodeF
  rw [List.getD_eq_getElem _ _ (by simpa using hj), List.getD_eq_getElem _ _ hj, List.getElem_modify]
  simp

theorem one_ne_zero_mod : (1 : ZMod intModulus) ≠ 0 := one_ne_zero

/-- C69 for single numbers off by one, as the debug programs of the client send them (client.cpp:977-984): a share of a value of `h`, a share of a product,
a share of `f(0)` (unless `g` is zero), a share of `a` (unless `b` is zero). Each is refused. -/
theorem C69_off_by_one {c : Circuit} (hc : CircOk c) {inps w : List ℤ} (hev : c.eval intModulus inps = some (w, true))
    (hcan : ∀ v ∈ inps, Canon v intModulus) {t : RootTables} {l : List ℕ} (hrc : RootCalls (npow2 c.mulGates.length :: l) t)
    {r : SnipRand} (hr : ValidRand intModulus c r) {pk0 pk1 : Packet} (hpk : sharePolynomials intModulus c w t r = some (pk0, pk1)) :
    (∀ j < npow2 c.mulGates.length, Refused c inps { pk0 with hPoints := pk0.hPoints.modify j (· + 1) } pk1) ∧
    (∀ i < c.mulGates.length, Refused c inps { pk0 with mulShares := pk0.mulShares.modify i (· + 1) } pk1) ∧
    (((r.g0 : ZMod intModulus) ≠ 0 ∨ ∃ i < c.mulGates.length, wireF intModulus w (c.parR (c.mg i)) ≠ 0) → Refused c inps pk0 { pk1 with f0 := pk1.f0 + 1 }) ∧
    (r.B ≠ 0 → Refused c inps pk0 { pk1 with triple := { pk1.triple with A := pk1.triple.A + 1 } }) := by
  obtain ⟨-, k0, k1, -⟩ := client_packets hc hev hrc hr hpk
  have hz : ∀ {y : ℤ}, IsDraw y intModulus → y ≠ 0 → (y : ZMod intModulus) ≠ 0 := by
    intro y hy h0 h
    rw [ZMod.intCast_zmod_eq_zero_iff_dvd] at h
    exact h0 (Int.eq_zero_of_dvd_of_nonneg_of_lt hy.1 hy.2 h)
  refine ⟨fun j hj => ?_, fun i hi => ?_, fun h => ?_, fun h => ?_⟩
  · refine C69_h hc hev hcan hrc hr hpk ⟨k0.m, by simpa using k0.h⟩ k1 rfl rfl (.inr ⟨j, hj, ?_⟩)
    simp only
    rw [nodeF_bump (by rw [k0.h]; exact hj)]
    intro e
    exact one_ne_zero_mod (by linear_combination e)
  · refine C69_products hc hev hcan hrc hr hpk ⟨by simpa using k0.m, k0.h⟩ k1 (i := i) ?_
    simp only
    rw [nodeF_bump (by rw [k0.m]; exact hi)]
    intro e
    exact one_ne_zero_mod (by linear_combination e)
  · refine C69_f0 hc hev hcan hrc hr hpk k0 ⟨k1.m, k1.h⟩ ?_ rfl rfl (fun _ _ => rfl) h
    simp only [Int.cast_add, Int.cast_one]
    intro e
    exact one_ne_zero_mod (by linear_combination e)
  · refine C69_triple_a hc hev hcan hrc hr hpk k0 ⟨k1.m, k1.h⟩ ?_ rfl rfl (hz hr.t.2.1 h)
    simp only [Int.cast_add, Int.cast_one]
    intro e
    exact one_ne_zero_mod (by linear_combination e)

/-! ## The operations -/

/-- The values satisfy the circuit and the packets add up to those of an honest client with these values. -/
def Proven (c : Circuit) (t : RootTables) (inps : List ℤ) (pk0 pk1 : Packet) : Prop := ∃ w, c.eval intModulus inps = some (w, true) ∧ Genuine c w t pk0 pk1

/-- C69 for VAR and STDDEV: a submission that is not proven passes at all but four check points for one in `p` of the coefficients only. -/
theorem C69_var {nbits : ℕ} {subs0 subs1 : List (Bytes × SnipRow)} {k : Bytes} {r0 r1 : SnipRow}
    (e0 : firstOf (varFits nbits) subs0 k = some r0) (e1 : firstOf (varFits nbits) subs1 k = some r1)
    (hr0 : SnipRowOk varCircuit 2 r0) (hr1 : SnipRowOk varCircuit 2 r1) {t : RootTables} {l : List ℕ} (hrc : RootCalls (2 :: l) t)
    (hbad : ¬ Proven varCircuit t (recIn (varWidths nbits) r0 r1) r0.packet r1.packet) :
    ∃ bad : Finset (ZMod intModulus), bad.card ≤ 4 ∧ ∀ x, Canon x intModulus → (x : ZMod intModulus) ∉ bad →
      {cs : List ℤ | cs.length = 2 ∧ (∀ y ∈ cs, IsDraw y intModulus) ∧
        Passes varCircuit x (varWidths nbits) (varFits nbits) subs0 subs1 cs k}.ncard = intModulus := by
  have hin : recIn (varWidths nbits) r0 r1 =
      [fmod (recVal (varWidths nbits) r0 r1 0) intModulus, fmod (recVal (varWidths nbits) r0 r1 1) intModulus] := rfl
  obtain ⟨c, w, b, hc, -, hev, -⟩ := C26_checkVar (fmod (recVal (varWidths nbits) r0 r1 0) intModulus)
    (fmod (recVal (varWidths nbits) r0 r1 1) intModulus)
  rw [checkVar_eq] at hc; cases hc
  obtain ⟨bad, h1, h2⟩ := (C69_dichotomy varCircuit_ok (inps := recIn (varWidths nbits) r0 r1) (w := w) hev (by
    rw [hin]; intro v hv
    simp only [List.mem_cons, List.not_mem_nil, or_false] at hv
    rcases hv with rfl | rfl <;> exact fmod_canon _) hr0.pk hr1.pk hrc).2 (fun h => hbad ⟨w, by rw [← h.1]; exact hev, h.2⟩)
  refine ⟨bad, h1, fun x hx hxb => ?_⟩
  have := h2 x hx hxb
  have ep : intModulus ^ varCircuit.resultZero.length = intModulus := pow_one _
  rw [ep] at this
  refine Eq.trans ?_ this
  congr 1
  ext cs
  simp only [Set.mem_ofPred_eq]
  refine and_congr_right fun _ => and_congr_right fun _ => ?_
  constructor
  · rintro ⟨a0, a1, f0, f1, h⟩
    rw [e0] at f0; cases f0
    rw [e1] at f1; cases f1
    exact h
  · exact fun h => ⟨r0, r1, e0, e1, h⟩

/-- C69 for LINREG. -/
theorem C69_linreg {d : ℕ} (hd : 1 ≤ d) (hsm : linMul d < 2 ^ 18) {nbits : ℕ} {c : Circuit} (hc : checkLinReg intModulus d = some c)
    {subs0 subs1 : List (Bytes × LinRow)} {k : Bytes} {r0 r1 : LinRow}
    (e0 : firstOf (linFits nbits) subs0 k = some r0) (e1 : firstOf (linFits nbits) subs1 k = some r1)
    (hr0 : LinRowOk c d r0) (hr1 : LinRowOk c d r1) {t : RootTables} {l : List ℕ} (hrc : RootCalls (npow2 (linMul d) :: l) t)
    (hbad : ¬ Proven c t ((linRec r0 r1).all.map fun v : ℕ => fmod (v : ℤ) intModulus) r0.packet r1.packet) :
    ∃ bad : Finset (ZMod intModulus), bad.card ≤ 2 * npow2 (linMul d) ∧ ∀ x, Canon x intModulus → (x : ZMod intModulus) ∉ bad →
      {cs : List ℤ | cs.length = linMul d + 1 ∧ (∀ y ∈ cs, IsDraw y intModulus) ∧ LinPasses c x nbits subs0 subs1 cs k}.ncard =
        intModulus ^ linMul d := by
  obtain ⟨c', e', hcok, hmul, hzero, hin, hevl⟩ := linCircuit hd hsm
  rw [hc] at e'; cases e'
  obtain ⟨w, b, hev, -⟩ := hevl ((linRec r0 r1).all.map fun v : ℕ => fmod (v : ℤ) intModulus)
    (by rw [List.length_map]; exact all_length hd hr0 hr1)
  obtain ⟨bad, h1, h2⟩ := (C69_dichotomy hcok hev (by
    intro v hv
    obtain ⟨a, -, rfl⟩ := List.mem_map.1 hv
    exact fmod_canon _) hr0.pk hr1.pk (by rw [hmul]; exact hrc)).2 (fun h => hbad ⟨w, by rw [← h.1]; exact hev, h.2⟩)
  rw [hmul] at h1
  refine ⟨bad, h1, fun x hx hxb => ?_⟩
  have := h2 x hx hxb
  rw [hzero] at this
  refine Eq.trans ?_ this
  congr 1
  ext cs
  simp only [Set.mem_ofPred_eq]
  refine and_congr_right fun _ => and_congr_right fun _ => ?_
  constructor
  · rintro ⟨a0, a1, f0, f1, h⟩
    rw [e0] at f0; cases f0
    rw [e1] at f1; cases f1
    exact h
  · exact fun h => ⟨r0, r1, e0, e1, h⟩

/-- A key held by both servers is in server 1's list. -/
theorem idx_of_both {α : Type} {ok : α → Bool} {subs0 subs1 : List (Bytes × α)} {ord : Map α → Map α} (ho : IsOrder ord) {k : Bytes}
    (hk : k ∈ bothKeys ok subs0 subs1) : (ord (admit ok subs1 [])).keys.idxOf k < (ord (admit ok subs1 [])).keys.length := by
  rw [List.idxOf_lt_length_iff]
  have h1 : (List.lookup k (admit ok subs1 [])).isSome = true := by
    rw [C34_first_admissible ok subs1 k]
    exact (mem_both.1 hk).2
  obtain ⟨v, hv⟩ := Option.isSome_iff_exists.1 h1
  exact List.mem_map.2 ⟨(k, v), (ho _).mem_iff.2 (mem_of_lookup hv), rfl⟩

theorem both_card_le {α : Type} (ok : α → Bool) (subs0 subs1 : List (Bytes × α)) : (bothKeys ok subs0 subs1).card ≤ subs0.length := by
  refine (Finset.card_le_card (Finset.filter_subset _ _)).trans ((List.toFinset_card_le _).trans (by rw [List.length_map]))

/-- C69 for a whole VAR or STDDEV batch: for all but a share of at most `5 m/p` of the choices of check point and coefficients, where `m` is the number
of submissions, every counted submission is proven. -/
theorem C69_var_batch {nbits m0 m1 : ℕ} {s0 s1 : Bytes} {subs0 subs1 : List (Bytes × SnipRow)} (h0 : VarStream m0 s0 subs0) (h1 : VarStream m1 s1 subs1)
    {t : RootTables} {l : List ℕ} (hrc : RootCalls (2 :: l) t) (ord : Map SnipRow → Map SnipRow) (ho : IsOrder ord) :
    let order := (ord (admit (varFits nbits) subs1 [])).keys
    ∃ Bad : Finset (BatchDraws intModulus 1 order.length), Bad.card ≤ m0 * (5 * intModulus ^ (2 * order.length)) ∧
      ∀ ω ∉ Bad, ∀ (coef : ℕ → ℤ) (pos : ℕ), (∀ i : Fin order.length, coefs coef pos 2 i = coefList (ω.2 i)) →
        ∀ k ∈ varCounted (ω.1.val : ℤ) coef pos nbits subs0 subs1 order, ∃ r0 r1, firstOf (varFits nbits) subs0 k = some r0 ∧
          firstOf (varFits nbits) subs1 k = some r1 ∧ Proven varCircuit t (recIn (varWidths nbits) r0 r1) r0.packet r1.packet := by
  intro order
  classical
  have hne : NeZero intModulus := ⟨by decide⟩
  set Good : Bytes → Prop := fun k => ∃ r0 r1, firstOf (varFits nbits) subs0 k = some r0 ∧
          firstOf (varFits nbits) subs1 k = some r1 ∧ Proven varCircuit t (recIn (varWidths nbits) r0 r1) r0.packet r1.packet with hG
  set S := (bothKeys (varFits nbits) subs0 subs1).filter fun k => ¬ Good k with hS
  obtain ⟨Bad, hc, hB⟩ := batch_count (p := intModulus) (K := 1) (M := order.length) (B := 4) S (fun k => order.idxOf k)
    (fun k hk => idx_of_both ho (Finset.mem_filter.1 hk).1)
    (fun k x cs => Passes varCircuit x (varWidths nbits) (varFits nbits) subs0 subs1 cs k)
    (fun k hk => by
      obtain ⟨hb, hg⟩ := Finset.mem_filter.1 hk
      obtain ⟨⟨r0, e0⟩, ⟨r1, e1⟩⟩ := (mem_both.1 hb).imp Option.isSome_iff_exists.1 Option.isSome_iff_exists.1
      rw [pow_one]
      exact C69_var e0 e1 (h0.spec.2.2 _ (firstOf_mem e0)) (h1.spec.2.2 _ (firstOf_mem e1)) hrc fun h => hg ⟨r0, r1, e0, e1, h⟩)
  refine ⟨Bad, hc.trans (Nat.mul_le_mul_right _ ?_), ?_⟩
  · rw [← h0.spec.1]
    exact (Finset.card_le_card (Finset.filter_subset _ _)).trans (both_card_le _ _ _)
  · intro ω hω coef pos hcoef k hk
    by_contra hg
    obtain ⟨hb, hp⟩ := Finset.mem_filter.1 hk
    have hkS : k ∈ S := Finset.mem_filter.2 ⟨hb, hg⟩
    have := hcoef ⟨_, idx_of_both ho hb⟩
    exact hB ω hω k hkS (by rw [← this]; exact hp)

/-- C69 for a whole LINREG batch. -/
theorem C69_linreg_batch {d : ℕ} (hd : 1 ≤ d) (hsm : linMul d < 2 ^ 18) {nbits m0 m1 : ℕ} {c : Circuit} (hc : checkLinReg intModulus d = some c)
    {s0 s1 : Bytes} {subs0 subs1 : List (Bytes × LinRow)} (h0 : LinStream d m0 s0 subs0) (h1 : LinStream d m1 s1 subs1)
    {t : RootTables} {l : List ℕ} (hrc : RootCalls (npow2 (linMul d) :: l) t) (ord : Map LinRow → Map LinRow) (ho : IsOrder ord) :
    let order := (ord (admit (linFits nbits) subs1 [])).keys
    ∃ Bad : Finset (BatchDraws intModulus (linMul d) order.length),
      Bad.card ≤ m0 * ((2 * npow2 (linMul d) + 1) * intModulus ^ ((linMul d + 1) * order.length)) ∧
      ∀ ω ∉ Bad, ∀ (coef : ℕ → ℤ) (pos : ℕ), (∀ i : Fin order.length, coefs coef pos (linMul d + 1) i = coefList (ω.2 i)) →
        ∀ k ∈ linCounted c (ω.1.val : ℤ) coef pos nbits subs0 subs1 order, ∃ r0 r1, firstOf (linFits nbits) subs0 k = some r0 ∧
          firstOf (linFits nbits) subs1 k = some r1 ∧
          Proven c t ((linRec r0 r1).all.map fun v : ℕ => fmod (v : ℤ) intModulus) r0.packet r1.packet := by
  intro order
  classical
  have hne : NeZero intModulus := ⟨by decide⟩
  obtain ⟨c', e', -, hmul, hzero, -⟩ := linCircuit hd hsm
  rw [hc] at e'; cases e'
  set Good : Bytes → Prop := fun k => ∃ r0 r1, firstOf (linFits nbits) subs0 k = some r0 ∧
          firstOf (linFits nbits) subs1 k = some r1 ∧
          Proven c t ((linRec r0 r1).all.map fun v : ℕ => fmod (v : ℤ) intModulus) r0.packet r1.packet with hG
  set S := (bothKeys (linFits nbits) subs0 subs1).filter fun k => ¬ Good k with hS
  obtain ⟨Bad, hcd, hB⟩ := batch_count (p := intModulus) (K := linMul d) (M := order.length) (B := 2 * npow2 (linMul d)) S (fun k => order.idxOf k)
    (fun k hk => idx_of_both ho (Finset.mem_filter.1 hk).1)
    (fun k x cs => LinPasses c x nbits subs0 subs1 cs k)
    (fun k hk => by
      obtain ⟨hb, hg⟩ := Finset.mem_filter.1 hk
      obtain ⟨⟨r0, e0⟩, ⟨r1, e1⟩⟩ := (mem_both.1 hb).imp Option.isSome_iff_exists.1 Option.isSome_iff_exists.1
      exact C69_linreg hd hsm hc e0 e1 ((h0.spec hmul).2.2 _ (firstOf_mem e0)) ((h1.spec hmul).2.2 _ (firstOf_mem e1)) hrc
        fun h => hg ⟨r0, r1, e0, e1, h⟩)
  refine ⟨Bad, hcd.trans (Nat.mul_le_mul_right _ ?_), ?_⟩
  · rw [← (h0.spec hmul).1]
    exact (Finset.card_le_card (Finset.filter_subset _ _)).trans (both_card_le _ _ _)
  · intro ω hω coef pos hcoef k hk
    by_contra hg
    obtain ⟨hb, hp⟩ := Finset.mem_filter.1 hk
    have hkS : k ∈ S := Finset.mem_filter.2 ⟨hb, hg⟩
    have := hcoef ⟨_, idx_of_both ho hb⟩
    refine hB ω hω k hkS ?_
    rw [← this]
    simpa [hzero] using hp

/-- An honest VAR client with the value 3: the hypotheses of the theorems on damaged proofs hold, and its undamaged packets are proven. -/
example : ∃ t w r pk0 pk1, CircOk varCircuit ∧ varCircuit.eval intModulus [3, 9] = some (w, true) ∧ RootCalls [npow2 varCircuit.mulGates.length] t ∧
    ValidRand intModulus varCircuit r ∧ sharePolynomials intModulus varCircuit w t r = some (pk0, pk1) ∧
    wireF intModulus w (varCircuit.parR (varCircuit.mg 0)) ≠ 0 ∧ Proven varCircuit t [3, 9] pk0 pk1 ∧
    ¬ Proven varCircuit t [3, 10] pk0 pk1 := by
  obtain ⟨t, ht⟩ := C30_sizes (c := varCircuit) (by decide) [] _ .start
  have hev : varCircuit.eval intModulus [3, 9] = some (([3, 9, 9, intModulus - 9, 0] : List ℤ), true) := by decide +kernel
  obtain ⟨q0, q1, -, -, -, -, -, hq, -⟩ := C30_accept varCircuit_ok.wf hev rfl (i1 := List.replicate 2 0) (by simp) (fun k _ => by
      rw [at0_zeros]; simp) ht ht (zeroDraws varCircuit).lh (zeroDraws varCircuit).lm (x := 0) ⟨le_rfl, by decide⟩
      (cs := List.replicate (varCircuit.resultZero.length + 1) 0) (by simp)
  refine ⟨t, _, _, q0, q1, varCircuit_ok, hev, ht, zeroDraws _, hq, ?_,
    ⟨_, hev, _, q0, q1, zeroDraws _, hq, fun _ => rfl, rfl, rfl, rfl, fun _ => rfl, rfl, rfl, rfl⟩, ?_⟩
  · have : varCircuit.parR (varCircuit.mg 0) = 0 := by decide
    rw [this]
    show ((3 : ℤ) : ZMod intModulus) ≠ 0
    intro h
    rw [ZMod.intCast_zmod_eq_zero_iff_dvd] at h
    exact absurd h (by decide)
  · rintro ⟨w, hw, -⟩
    have : varCircuit.eval intModulus [3, 10] = some (([3, 10, 9, intModulus - 10, intModulus - 1] : List ℤ), false) := by decide +kernel
    rw [this] at hw
    simp at hw

end Verif

import Verif.PropsRobust
import Verif.PropsFreq

/-! # C68: what dishonest clients can do to the answer (VAR, STDDEV, LINREG, FREQ) -/

namespace Verif

variable {n : ℕ} {key : Fin n → Bytes}

/-- The accepted keys: those of honest clients, if they pass, and those that pass among the others. -/
theorem filter_split {α : Type} {ok : α → Bool} {A0 A1 : List (Fin n ⊕ Bytes × α)} (h0 : Arrives key A0) (h1 : Arrives key A1)
    {f0 f1 : Fin n → α} (g0 : ∀ i, ok (f0 i) = true) (g1 : ∀ i, ok (f1 i) = true) {P Q : Bytes → Prop} [DecidablePred P] [DecidablePred Q]
    (hP : ∀ i, P (key i)) (hPQ : ∀ k, (∀ i, key i ≠ k) → (P k ↔ Q k)) :
    (bothKeys ok (fill key A0 f0) (fill key A1 f1)).filter P =
      Finset.univ.image key ∪ (bothKeys ok (others A0) (others A1)).filter Q ∧
    Disjoint (Finset.univ.image key) ((bothKeys ok (others A0) (others A1)).filter Q) := by
  obtain ⟨e, d⟩ := both_split h0 h1 g0 g1
  refine ⟨?_, Finset.disjoint_of_subset_right (Finset.filter_subset _ _) d⟩
  rw [e, Finset.filter_union]
  congr 1
  · rw [Finset.filter_eq_self]
    intro k hk
    obtain ⟨i, -, rfl⟩ := Finset.mem_image.1 hk
    exact hP i
  · exact Finset.filter_congr fun k hk => hPQ k (not_key_of_both h0 hk)

/-- C68 for VAR and STDDEV. Honest clients, any others, any arrival order: the sums and the count from which server 0 computes the answer are
those of the honest clients plus those of a set `G` of the others' keys. Every key in `G` is held by both servers and passes the check, with a
value below `2^nbits` and a square below `2^(2 nbits)`. By C40_cheater a key with a wrong square passes for one in `p` of the coefficients only,
and up to 23 bits a right one is exact (C41). -/
theorem C68_var (fma std : Bool) {nbits : ℕ} (hb : nbits ≤ 24) (hn : 0 < n) {A0 A1 : List (Fin n ⊕ Bytes × SnipRow)}
    (hA0 : Arrives key A0) (hA1 : Arrives key A1) (hlen : A1.length < 2 ^ 32) {t : RootTables} {l : List ℕ} (hrc : RootCalls (2 :: l) t)
    (rawReal rawShare rawShare2 : Fin n → U64) (r : Fin n → Draws varCircuit) {real : Fin n → U64} {f0 f1 : Fin n → SnipRow}
    (hc : ∀ i, clientVar nbits (rawReal i) (rawShare i) (rawShare2 i) t (r i).1 = some (real i, f0 i, f1 i))
    {s0 s1 : Bytes} (h0 : VarStream A0.length s0 (fill key A0 f0)) (h1 : VarStream A1.length s1 (fill key A1 f1))
    {x : ℤ} {uses pos : ℕ} {st0 st1 : SnipState} (hs0 : SnipOk x uses pos st0)
    (hs1 : SnipOk x uses pos st1) (coef : ℕ → ℤ) (raw0 raw1 : ℕ → ℕ → ℕ → U64) (ord : Map SnipRow → Map SnipRow) (ho : IsOrder ord) :
    ∃ st0' st1' G, G.card ≤ (others A0).length ∧ G.card ≤ (others A1).length ∧
      (∀ k ∈ G, varVal nbits (others A0) (others A1) 0 k < 2 ^ nbits ∧ varVal nbits (others A0) (others A1) 1 k < 2 ^ (2 * nbits) ∧
        Passes varCircuit x (varWidths nbits) (varFits nbits) (others A0) (others A1)
          (coefs coef pos 2 ((ord (admit (varFits nbits) (fill key A1 f1) [])).keys.idxOf k)) k) ∧
      Always (varOp0 fma std nbits A0.length s0 coef raw0 st0) (varOp1 nbits A1.length s1 coef raw1 st1 ord)
        (verdict (n + G.card) A0.length (varAnswer fma std
          (((∑ i, (rawReal i).toNat % 2 ^ nbits) + ∑ k ∈ G, varVal nbits (others A0) (others A1) 0 k) % intModulus : ℕ)
          (((∑ i, ((rawReal i).toNat % 2 ^ nbits) ^ 2) + ∑ k ∈ G, varVal nbits (others A0) (others A1) 1 k) % intModulus : ℕ)
          (n + G.card)), st0') (.noAns, st1') := by
  have hrow : ∀ i, ∃ w, varFits nbits (f0 i) = true ∧ varFits nbits (f1 i) = true ∧
      ((f0 i).vals.getD 0 0#64 ^^^ (f1 i).vals.getD 0 0#64).toNat = (rawReal i).toNat % 2 ^ nbits ∧
      ((f0 i).vals.getD 1 0#64 ^^^ (f1 i).vals.getD 1 0#64).toNat = ((rawReal i).toNat % 2 ^ nbits) ^ 2 ∧
      varCircuit.eval intModulus [(((rawReal i).toNat % 2 ^ nbits : ℕ) : ℤ), ((((rawReal i).toNat % 2 ^ nbits) ^ 2 : ℕ) : ℤ)] = some (w, true) ∧
      sharePolynomials intModulus varCircuit w t (r i).1 = some ((f0 i).packet, (f1 i).packet) := by
    intro i
    obtain ⟨real', r0, r1, w, h, -, a1, a2, -, -, a3, a4, a5, a6⟩ :=
      clientVar_spec (by omega : nbits ≤ 31) hrc ⟨[], rawReal i, rawShare i, rawShare2 i, (r i).1⟩ (r i).2
    rw [VarClient.out, hc i] at h
    cases h
    exact ⟨w, a1, a2, a3, a4, a5, a6⟩
  have g0 : ∀ i, varFits nbits (f0 i) = true := fun i => (hrow i).choose_spec.1
  have g1 : ∀ i, varFits nbits (f1 i) = true := fun i => (hrow i).choose_spec.2.1
  obtain ⟨st0', st1', h, -⟩ := C40_var_op fma std hb hlen h0 h1
    ⟨_, List.mem_map.2 ⟨_, hA1.all ⟨0, hn⟩, rfl⟩, g1 _⟩ hs0 hs1 coef raw0 raw1 ord ho
  set o := (ord (admit (varFits nbits) (fill key A1 f1) [])).keys with hodef
  classical
  set G := (bothKeys (varFits nbits) (others A0) (others A1)).filter fun k =>
    Passes varCircuit x (varWidths nbits) (varFits nbits) (others A0) (others A1) (coefs coef pos 2 (o.idxOf k)) k with hG
  have hval : ∀ i, varVal nbits (fill key A0 f0) (fill key A1 f1) 0 (key i) = (rawReal i).toNat % 2 ^ nbits ∧
      varVal nbits (fill key A0 f0) (fill key A1 f1) 1 (key i) = ((rawReal i).toNat % 2 ^ nbits) ^ 2 := by
    intro i
    obtain ⟨w, -, -, x0, x1, -⟩ := hrow i
    simp only [varVal, firstOf_honest hA0 i (g0 i), firstOf_honest hA1 i (g1 i)]
    exact ⟨x0, x1⟩
  have hother : ∀ k ∈ bothKeys (varFits nbits) (others A0) (others A1), ∀ j, varVal nbits (fill key A0 f0) (fill key A1 f1) j k =
      varVal nbits (others A0) (others A1) j k := by
    intro k hk j
    unfold varVal
    rw [firstOf_others A0 _ (not_key_of_both hA0 hk), firstOf_others A1 _ (not_key_of_both hA0 hk)]
  obtain ⟨es, ed⟩ := filter_split (P := fun k => Passes varCircuit x (varWidths nbits) (varFits nbits) (fill key A0 f0) (fill key A1 f1)
      (coefs coef pos 2 (o.idxOf k)) k) (Q := fun k => Passes varCircuit x (varWidths nbits) (varFits nbits) (others A0) (others A1)
      (coefs coef pos 2 (o.idxOf k)) k) hA0 hA1 g0 g1 (fun i => by
    obtain ⟨w, -, -, x0, x1, hev, hpk⟩ := hrow i
    have hk0 := keyVal_var nbits (fill key A0 f0) (fill key A1 f1) 0 (by omega) (key i)
    have hk1 := keyVal_var nbits (fill key A0 f0) (fill key A1 f1) 1 (by omega) (key i)
    rw [(hval i).1] at hk0
    rw [(hval i).2] at hk1
    simp only [keyVal, firstOf_honest hA0 i (g0 i), firstOf_honest hA1 i (g1 i)] at hk0 hk1
    exact C40_honest_passes (firstOf_honest hA0 i (g0 i)) (firstOf_honest hA1 i (g1 i)) hev (by rw [hk0, Int.cast_natCast])
      (by rw [hk1, Int.cast_natCast]) hrc (r i).2 hpk hs0.canon (by rw [coefs_length])) (fun k hk => by
    unfold Passes
    rw [firstOf_others A0 _ hk, firstOf_others A1 _ hk])
  have hGc : varCounted x coef pos nbits (fill key A0 f0) (fill key A1 f1) o = Finset.univ.image key ∪ G := by
    rw [← es]
    unfold varCounted passing
    congr
  have hGs : G ⊆ bothKeys (varFits nbits) (others A0) (others A1) := Finset.filter_subset _ _
  refine ⟨st0', st1', G, (Finset.card_le_card hGs).trans (both_others_le A0 A1).1, (Finset.card_le_card hGs).trans (both_others_le A0 A1).2,
    fun k hk => ⟨(C49_var_vals nbits _ _ k).1, (C49_var_vals nbits _ _ k).2, (Finset.mem_filter.1 hk).2⟩, ?_⟩
  rw [hGc, Finset.card_union_of_disjoint ed, Finset.card_image_of_injective _ hA0.inj, Finset.card_univ, Fintype.card_fin,
    Finset.sum_union ed, Finset.sum_union ed, Finset.sum_image fun i _ j _ h => hA0.inj h, Finset.sum_image fun i _ j _ h => hA0.inj h,
    Finset.sum_congr rfl fun i _ => (hval i).1, Finset.sum_congr rfl fun i _ => (hval i).2,
    Finset.sum_congr rfl fun k hk => hother k (hGs hk) 0, Finset.sum_congr rfl fun k hk => hother k (hGs hk) 1] at h
  exact h

/-- C68 for VAR and STDDEV with sound checks: if no wrong submission of the others slips through (C40_cheater) and the batch is small enough for
the sums not to wrap, the answer is, up to rounding, the variance of the honest values and at most as many values below `2^nbits` as the others
sent submissions. -/
theorem C68_var_values (fma std : Bool) {nbits : ℕ} (hb : nbits ≤ 23) (hn : 0 < n) {A0 A1 : List (Fin n ⊕ Bytes × SnipRow)}
    (hA0 : Arrives key A0) (hA1 : Arrives key A1) (hlen : A1.length < 2 ^ 32) {t : RootTables} {l : List ℕ} (hrc : RootCalls (2 :: l) t)
    (rawReal rawShare rawShare2 : Fin n → U64) (r : Fin n → Draws varCircuit) {real : Fin n → U64} {f0 f1 : Fin n → SnipRow}
    (hc : ∀ i, clientVar nbits (rawReal i) (rawShare i) (rawShare2 i) t (r i).1 = some (real i, f0 i, f1 i))
    {s0 s1 : Bytes} (h0 : VarStream A0.length s0 (fill key A0 f0)) (h1 : VarStream A1.length s1 (fill key A1 f1))
    (hp : (n + (others A0).length) * 2 ^ (2 * nbits) < intModulus)
    {x : ℤ} {uses pos : ℕ} {st0 st1 : SnipState} (hs0 : SnipOk x uses pos st0)
    (hs1 : SnipOk x uses pos st1) (coef : ℕ → ℤ) (raw0 raw1 : ℕ → ℕ → ℕ → U64) (ord : Map SnipRow → Map SnipRow) (ho : IsOrder ord)
    (hsound : ∀ k, Passes varCircuit x (varWidths nbits) (varFits nbits) (others A0) (others A1)
      (coefs coef pos 2 ((ord (admit (varFits nbits) (fill key A1 f1) [])).keys.idxOf k)) k →
      ((varVal nbits (others A0) (others A1) 1 k : ℕ) : ZMod intModulus) = (varVal nbits (others A0) (others A1) 0 k : ZMod intModulus) ^ 2) :
    ∃ (extra : List ℕ) (a : ℝ) (st0' st1' : SnipState), extra.length ≤ (others A0).length ∧ extra.length ≤ (others A1).length ∧
      (∀ v ∈ extra, v < 2 ^ nbits) ∧
      let vs := (List.ofFn fun i => (rawReal i).toNat % 2 ^ nbits) ++ extra
      NearVar std (listVar vs) (meanSq vs) (∀ u ∈ vs, ∀ v ∈ vs, u = v) a ∧
      Always (varOp0 fma std nbits A0.length s0 coef raw0 st0) (varOp1 nbits A1.length s1 coef raw1 st1 ord)
        (verdict vs.length A0.length (some a), st0') (.noAns, st1') := by
  obtain ⟨st0', st1', G, c0, c1, hG, h⟩ := C68_var fma std (by omega : nbits ≤ 24) hn hA0 hA1 hlen hrc rawReal rawShare rawShare2 r hc h0 h1
    hs0 hs1 coef raw0 raw1 ord ho
  set extra : List ℕ := G.toList.map fun k => varVal nbits (others A0) (others A1) 0 k with hex
  have hel : extra.length = G.card := by rw [hex, List.length_map, Finset.length_toList]
  have hev : ∀ v ∈ extra, v < 2 ^ nbits := by
    intro v hv
    obtain ⟨k, hk, rfl⟩ := List.mem_map.1 hv
    exact (hG k (Finset.mem_toList.1 hk)).1
  set vs := (List.ofFn fun i => (rawReal i).toNat % 2 ^ nbits) ++ extra with hvs
  have hvl : vs.length = n + G.card := by rw [hvs, List.length_append, List.length_ofFn, hel]
  have hvlt : ∀ v ∈ vs, v < 2 ^ nbits := by
    intro v hv
    rcases List.mem_append.1 hv with h | h
    · obtain ⟨i, rfl⟩ := (List.mem_ofFn' _ _).1 h
      exact Nat.mod_lt _ (pow_pos (by norm_num) _)
    · exact hev v h
  have hsum : vs.sum = (∑ i, (rawReal i).toNat % 2 ^ nbits) + ∑ k ∈ G, varVal nbits (others A0) (others A1) 0 k := by
    rw [hvs, List.sum_append, List.sum_ofFn, hex, Finset.sum_map_toList]
  have hsq : (vs.map fun v => v ^ 2).sum = (∑ i, ((rawReal i).toNat % 2 ^ nbits) ^ 2) + ∑ k ∈ G, varVal nbits (others A0) (others A1) 1 k := by
    rw [hvs, List.map_append, List.sum_append, List.map_ofFn, List.sum_ofFn, hex, List.map_map, Finset.sum_map_toList]
    congr 1
    refine Finset.sum_congr rfl fun k hk => ?_
    exact (C41_counted hb _ _ k (hsound k (hG k hk).2.2)).symm
  have hsqlt : (vs.map fun v => v ^ 2).sum < intModulus := by
    have h1 : (vs.map fun v => v ^ 2).sum ≤ vs.length * 2 ^ (2 * nbits) := by
      have := List.sum_le_card_nsmul (vs.map fun v => v ^ 2) (2 ^ (2 * nbits)) fun q hq => by
        obtain ⟨v, hv, rfl⟩ := List.mem_map.1 hq
        rw [mul_comm 2 nbits, pow_mul]
        exact Nat.pow_le_pow_left (hvlt v hv).le 2
      simpa using this
    have h2 : vs.length * 2 ^ (2 * nbits) ≤ (n + (others A0).length) * 2 ^ (2 * nbits) := Nat.mul_le_mul_right _ (by omega)
    omega
  have hp48 : intModulus ≤ 2 ^ 48 := by decide
  have hvn : vs.length < 2 ^ 53 := by
    have : vs.length ≤ vs.length * 2 ^ (2 * nbits) := Nat.le_mul_of_pos_right _ (by positivity)
    have h2 : vs.length * 2 ^ (2 * nbits) ≤ (n + (others A0).length) * 2 ^ (2 * nbits) := Nat.mul_le_mul_right _ (by omega)
    omega
  obtain ⟨a, ha, hnear⟩ := varAnswer_near fma std (l := vs) (by intro h; rw [h] at hvl; simp at hvl; omega) hvn (by omega)
  have hle := sum_le_sum_sq vs
  refine ⟨extra, a, st0', st1', by omega, by omega, hev, hnear, ?_⟩
  rw [← hsum, ← hsq, Nat.mod_eq_of_lt (by omega), Nat.mod_eq_of_lt hsqlt, ← hvl, ha] at h
  exact h

theorem sums_lt {d nbits : ℕ} {data : List (List ℕ × ℕ)} (hx : ∀ r ∈ data, ∀ v ∈ r.1, v < 2 ^ nbits) (hy : ∀ r ∈ data, r.2 < 2 ^ nbits) {p : ℕ}
    (hp : data.length * 2 ^ (2 * nbits) < p) : ∀ m ∈ xSums d data ++ ySums d data, m < p := by
  have key : ∀ F : List ℕ × ℕ → ℕ, (∀ r ∈ data, F r ≤ 2 ^ (2 * nbits)) → (data.map F).sum < p := by
    intro F hF
    have := List.sum_le_card_nsmul (data.map F) (2 ^ (2 * nbits)) fun q hq => by
      obtain ⟨r, hr, rfl⟩ := List.mem_map.1 hq
      exact hF r hr
    rw [List.length_map, smul_eq_mul] at this
    omega
  have h1 : (2 : ℕ) ^ nbits ≤ 2 ^ (2 * nbits) := Nat.pow_le_pow_right (by norm_num) (by omega)
  have hmul : ∀ a b : ℕ, a < 2 ^ nbits → b < 2 ^ nbits → a * b ≤ 2 ^ (2 * nbits) := by
    intro a b ha hb
    rw [two_mul, pow_add]
    exact Nat.mul_le_mul ha.le hb.le
  have hg : ∀ r ∈ data, ∀ i, r.1.getD i 0 < 2 ^ nbits := by
    intro r hr i
    rw [List.getD_eq_getElem?_getD]
    rcases he : r.1[i]? with _ | v
    · simp
    · exact hx r hr v (List.mem_of_getElem? he)
  intro m hm
  simp only [xSums, ySums, List.cons_append, List.mem_cons, List.mem_append, List.mem_map] at hm
  rcases hm with rfl | (⟨i, -, rfl⟩ | ⟨q, -, rfl⟩) | rfl | ⟨i, -, rfl⟩
  · have : data.length ≤ data.length * 2 ^ (2 * nbits) := Nat.le_mul_of_pos_right _ (by positivity)
    omega
  · exact key _ fun r hr => ((hg r hr i).le.trans h1)
  · refine key _ fun r hr => ?_
    rw [List.getD_eq_getElem?_getD]
    rcases he : (pairProducts r.1)[q]? with _ | v
    · simp
    · obtain ⟨a, ha, b, hb, rfl⟩ := mem_pairProducts (List.mem_of_getElem? he)
      exact hmul a b (hx r hr a ha) (hx r hr b hb)
  · exact key _ fun r hr => ((hy r hr).le.trans h1)
  · exact key _ fun r hr => hmul _ _ (hy r hr) (hg r hr i)

/-- C68 for LINREG with sound checks: if no wrong submission of the others slips through (C42_cheater) and the batch is small enough for the sums
not to wrap, the answer is the least-squares fit of the honest data and at most as many further data points, with entries below `2^nbits`, as the
others sent submissions. -/
theorem C68_linreg {d : ℕ} (hd : 1 ≤ d) (hsm : linMul d < 2 ^ 18) {nbits : ℕ} (hb : nbits ≤ 23) (hn : 0 < n) {c : Circuit}
    (hcirc : checkLinReg intModulus d = some c) {A0 A1 : List (Fin n ⊕ Bytes × LinRow)}
    (hA0 : Arrives key A0) (hA1 : Arrives key A1) (hlen0 : A0.length < 2 ^ 64) (hlen : A1.length < 2 ^ 32) {t : RootTables} {l : List ℕ}
    (hrc : RootCalls (npow2 (linMul d) :: l) t)
    (cl : Fin n → LinClient) (hsz : ∀ i, (cl i).Sized d) (hr : ∀ i, ValidRand intModulus c (cl i).rand) {f0 f1 : Fin n → LinRow}
    (hc : ∀ i, clientLin d nbits (cl i).draws t (cl i).rand = some (f0 i, f1 i))
    {s0 s1 : Bytes} (h0 : LinStream d A0.length s0 (fill key A0 f0)) (h1 : LinStream d A1.length s1 (fill key A1 f1))
    (hp : (n + (others A0).length) * 2 ^ (2 * nbits) < intModulus)
    {x : ℤ} {uses pos : ℕ} {st0 st1 : SnipState} (hs0 : SnipOk x uses pos st0)
    (hs1 : SnipOk x uses pos st1) (coef : ℕ → ℤ) (raw0 raw1 : ℕ → ℕ → ℕ → U64) (u : ℕ → ℕ → U64) (ord : Map LinRow → Map LinRow) (ho : IsOrder ord)
    (hsound : ∀ k, LinPasses c x nbits (others A0) (others A1)
      (coefs coef pos (linMul d + 1) ((ord (admit (linFits nbits) (fill key A1 f1) [])).keys.idxOf k)) k →
      ∃ xs y, xs.length = d - 1 ∧ (linAt nbits (others A0) (others A1) k).all.map (fun v : ℕ => (v : ZMod intModulus)) = regressionRow xs y) :
    ∃ (extra : List (List ℕ × ℕ)) (r : Option (List ℚ)) (st0' st1' : SnipState), extra.length ≤ (others A0).length ∧
      extra.length ≤ (others A1).length ∧ (∀ q ∈ extra, q.1.length = d - 1 ∧ (∀ v ∈ q.1, v < 2 ^ nbits) ∧ q.2 < 2 ^ nbits) ∧
      let data := (List.ofFn fun i => (cl i).data nbits) ++ extra
      Always (linOp0 nbits A0.length s0 coef raw0 u st0) (linOp1 nbits A1.length s1 coef raw1 st1 ord)
        (verdict data.length A0.length r, st0') (.noAns, st1') ∧
      ((normalMatrix d data).det = 0 → r = none) ∧
      ((normalMatrix d data).det ≠ 0 → ∃ co : List ℚ, r = some co ∧ co.length = d ∧
        ∀ b : ℕ → ℝ, rss d data (fun i => (co.getD i 0 : ℚ)) ≤ rss d data b ∧
          (rss d data b = rss d data (fun i => (co.getD i 0 : ℚ)) → ∀ i < d, b i = (co.getD i 0 : ℚ))) := by
  obtain ⟨c', e', hcok, hmul, hzero, -⟩ := linCircuit hd hsm
  rw [hcirc] at e'; cases e'
  have hrow : ∀ i, ∃ w, linFits nbits (f0 i) = true ∧ linFits nbits (f1 i) = true ∧
      linRec (f0 i) (f1 i) = ⟨((cl i).data nbits).1, ((cl i).data nbits).2, pairProducts ((cl i).data nbits).1,
        ((cl i).data nbits).1.map fun x => ((cl i).data nbits).2 * x⟩ ∧
      c.eval intModulus ((linRec (f0 i) (f1 i)).all.map fun v : ℕ => (v : ℤ)) = some (w, true) ∧
      sharePolynomials intModulus c w t (cl i).rand = some ((f0 i).packet, (f1 i).packet) := by
    intro i
    obtain ⟨r0, r1, w, e, a1, a2, -, -, a3, a4, a5, -⟩ := clientLin_full hd hsm (by omega : nbits ≤ 31) hcirc hrc (hsz i) (hr i)
    rw [hc i] at e; cases e
    exact ⟨w, a1, a2, a3, a4, a5⟩
  have g0 : ∀ i, linFits nbits (f0 i) = true := fun i => (hrow i).choose_spec.1
  have g1 : ∀ i, linFits nbits (f1 i) = true := fun i => (hrow i).choose_spec.2.1
  obtain ⟨st0', st1', xa, ya, r, h, hsolve, hxa, hya, -⟩ := C42_linreg_op hd hsm (by omega : nbits ≤ 24) hlen0 hlen h0 h1
    ⟨_, List.mem_map.2 ⟨_, hA1.all ⟨0, hn⟩, rfl⟩, g1 _⟩ hs0 hs1 coef raw0 raw1 u ord ho hcirc
  set o := (ord (admit (linFits nbits) (fill key A1 f1) [])).keys with hodef
  classical
  set G := (bothKeys (linFits nbits) (others A0) (others A1)).filter fun k =>
    LinPasses c x nbits (others A0) (others A1) (coefs coef pos (linMul d + 1) (o.idxOf k)) k with hG
  have hhon : ∀ i, linAt nbits (fill key A0 f0) (fill key A1 f1) (key i) = ⟨((cl i).data nbits).1, ((cl i).data nbits).2,
      pairProducts ((cl i).data nbits).1, ((cl i).data nbits).1.map fun x => ((cl i).data nbits).2 * x⟩ := by
    intro i
    obtain ⟨w, -, -, e, -⟩ := hrow i
    unfold linAt
    rw [firstOf_honest hA0 i (g0 i), firstOf_honest hA1 i (g1 i)]
    exact e
  have hother : ∀ k ∈ bothKeys (linFits nbits) (others A0) (others A1), linAt nbits (fill key A0 f0) (fill key A1 f1) k =
      linAt nbits (others A0) (others A1) k := by
    intro k hk
    unfold linAt
    rw [firstOf_others A0 _ (not_key_of_both hA0 hk), firstOf_others A1 _ (not_key_of_both hA0 hk)]
  obtain ⟨es, ed⟩ := filter_split (P := fun k => LinPasses c x nbits (fill key A0 f0) (fill key A1 f1)
      (coefs coef pos (linMul d + 1) (o.idxOf k)) k) (Q := fun k => LinPasses c x nbits (others A0) (others A1)
      (coefs coef pos (linMul d + 1) (o.idxOf k)) k) hA0 hA1 g0 g1 (fun i => by
    obtain ⟨w, -, -, -, hev, hpk⟩ := hrow i
    refine ⟨f0 i, f1 i, firstOf_honest hA0 i (g0 i), firstOf_honest hA1 i (g1 i), ?_⟩
    refine accepts_honest (inps := (linRec (f0 i) (f1 i)).all.map fun v : ℕ => fmod (v : ℤ) intModulus) hcok.wf hev (by simp) ?_
      (by rw [hmul]; exact hrc) (hr i).lh (hr i).lm hpk hs0.canon (by rw [coefs_length, hzero])
    intro j hj
    have hj' : j < (linRec (f0 i) (f1 i)).all.length := by simpa using hj
    simp [at0, List.getD_eq_getElem?_getD, List.getElem?_eq_getElem hj']) (fun k hk => by
    unfold LinPasses
    rw [firstOf_others A0 _ hk, firstOf_others A1 _ hk])
  have hGc : linCounted c x coef pos nbits (fill key A0 f0) (fill key A1 f1) o = Finset.univ.image key ∪ G := by
    rw [← es]
    unfold linCounted
    rw [hzero]
  have hGs : G ⊆ bothKeys (linFits nbits) (others A0) (others A1) := Finset.filter_subset _ _
  -- the lists of keys and data
  set v := linAt nbits (fill key A0 f0) (fill key A1 f1) with hv
  set ks := List.ofFn key ++ G.toList with hks
  have hkn : ks.Nodup := by
    rw [hks, List.nodup_append]
    refine ⟨List.nodup_ofFn.2 hA0.inj, Finset.nodup_toList _, ?_⟩
    intro a ha b hb' hab
    subst hab
    obtain ⟨i, rfl⟩ := (List.mem_ofFn' _ _).1 ha
    exact not_key_of_both hA0 (hGs (Finset.mem_toList.1 hb')) i rfl
  have hkf : ks.toFinset = Finset.univ.image key ∪ G := by
    ext k
    rw [hks, List.mem_toFinset, List.mem_append, Finset.mem_union, Finset.mem_toList]
    refine or_congr ?_ Iff.rfl
    simp [List.mem_ofFn']
  have hkc : ks.length = n + G.card := by rw [hks, List.length_append, List.length_ofFn, Finset.length_toList]
  set extra : List (List ℕ × ℕ) := G.toList.map fun k => ((linAt nbits (others A0) (others A1) k).x, (linAt nbits (others A0) (others A1) k).y) with hex
  have hdata : (ks.map fun k => ((v k).x, (v k).y)) = (List.ofFn fun i => (cl i).data nbits) ++ extra := by
    rw [hks, List.map_append, List.map_ofFn]
    congr 1
    · congr 1
      funext i
      simp only [Function.comp_apply, hhon i]
    · refine List.map_congr_left fun k hk => ?_
      rw [hother k (hGs (Finset.mem_toList.1 hk))]
  have hGrow : ∀ k ∈ G, ∃ r0 r1, linAt nbits (others A0) (others A1) k = linRec r0 r1 ∧ LinRowOk c d r0 ∧ LinRowOk c d r1 := by
    intro k hk
    obtain ⟨⟨r0, e0⟩, ⟨r1, e1⟩⟩ := (mem_both.1 (hGs hk)).imp Option.isSome_iff_exists.1 Option.isSome_iff_exists.1
    refine ⟨r0, r1, by unfold linAt; rw [e0, e1], ?_, ?_⟩
    · exact (h0.spec hmul).2.2 (k, r0) (List.mem_map.2 ⟨_, mem_others.1 (firstOf_mem e0), rfl⟩)
    · exact (h1.spec hmul).2.2 (k, r1) (List.mem_map.2 ⟨_, mem_others.1 (firstOf_mem e1), rfl⟩)
  have hGlen : ∀ k ∈ G, (linAt nbits (others A0) (others A1) k).x.length = d - 1 ∧ (linAt nbits (others A0) (others A1) k).x2.length = numQuad d := by
    intro k hk
    obtain ⟨r0, r1, e, o0, o1⟩ := hGrow k hk
    rw [e]
    simp [linRec, xors, o0.x, o1.x, o0.x2, o1.x2]
  have hlenx : ∀ k ∈ ks, (v k).x.length = d - 1 := by
    intro k hk
    rcases List.mem_append.1 hk with hk | hk
    · obtain ⟨i, rfl⟩ := (List.mem_ofFn' _ _).1 hk
      rw [hhon i]
      simp [LinClient.data, (hsz i).x]
    · rw [hother k (hGs (Finset.mem_toList.1 hk))]
      exact (hGlen k (Finset.mem_toList.1 hk)).1
  have hprod : ∀ k ∈ ks, (v k).x2 = pairProducts (v k).x ∧ (v k).xy = (v k).x.map fun x => (v k).y * x := by
    intro k hk
    rcases List.mem_append.1 hk with hk | hk
    · obtain ⟨i, rfl⟩ := (List.mem_ofFn' _ _).1 hk
      rw [hhon i]
      exact ⟨rfl, rfl⟩
    · have hk := Finset.mem_toList.1 hk
      rw [hother k (hGs hk)]
      exact C42_exact hb _ _ k (hGlen k hk).1 (hGlen k hk).2 (hsound k (Finset.mem_filter.1 hk).2)
  have hlt : ∀ m ∈ xSums d (ks.map fun k => ((v k).x, (v k).y)) ++ ySums d (ks.map fun k => ((v k).x, (v k).y)), m < intModulus := by
    refine sums_lt (nbits := nbits) ?_ ?_ ?_
    · intro q hq
      obtain ⟨k, -, rfl⟩ := List.mem_map.1 hq
      exact (C49_lin_vals nbits _ _ k).1
    · intro q hq
      obtain ⟨k, -, rfl⟩ := List.mem_map.1 hq
      exact (C49_lin_vals nbits _ _ k).2.1
    · rw [List.length_map, hkc]
      have h1 : G.card ≤ (others A0).length := (Finset.card_le_card hGs).trans (both_others_le A0 A1).1
      exact lt_of_le_of_lt (Nat.mul_le_mul_right _ (by omega)) hp
  obtain ⟨n1, n2⟩ := C42_normal_equations (d := d) hkn (fun k hk => (hprod k hk).1) hlenx (fun k hk => (hprod k hk).2) hlt
  rw [hkf, hdata] at n1 n2
  rw [hGc] at hxa hya h
  rw [n1] at hxa
  rw [n2] at hya
  have hrows : ∀ q ∈ (List.ofFn fun i => (cl i).data nbits) ++ extra, q.1.length = d - 1 := by
    intro q hq
    rw [← hdata] at hq
    obtain ⟨k, hk, rfl⟩ := List.mem_map.1 hq
    exact hlenx k hk
  have hel : extra.length = G.card := by rw [hex, List.length_map, Finset.length_toList]
  have hcard : (Finset.univ.image key ∪ G).card = ((List.ofFn fun i => (cl i).data nbits) ++ extra).length := by
    rw [← hkf, List.toFinset_card_of_nodup hkn, ← hdata, List.length_map]
  rw [hcard] at h
  refine ⟨extra, r, st0', st1', by rw [hel]; exact (Finset.card_le_card hGs).trans (both_others_le A0 A1).1,
    by rw [hel]; exact (Finset.card_le_card hGs).trans (both_others_le A0 A1).2, ?_, h, fun hdet => ?_, fun hdet => ?_⟩
  · intro q hq
    obtain ⟨k, hk, rfl⟩ := List.mem_map.1 hq
    exact ⟨(hGlen k (Finset.mem_toList.1 hk)).1, (C49_lin_vals nbits _ _ k).1, (C49_lin_vals nbits _ _ k).2.1⟩
  · have := (C43_singular hd hrows hxa hya hdet).1
    rw [hsolve] at this; cases this; rfl
  · obtain ⟨co, h1, h2, -, h4⟩ := C43_least_squares hd hrows hxa hya hdet
    rw [hsolve] at h1; cases h1
    exact ⟨co, rfl, h2, h4⟩

theorem keysOf_fill_add {A : List (Fin n ⊕ Bytes × List Bool)} (h : Arrives key A) (f : Fin n → List Bool) :
    keysOf (fill key A f) = Finset.univ.image key ∪ keysOf (others A) ∧ Disjoint (Finset.univ.image key) (keysOf (others A)) := by
  have hm : ∀ (l : List (Bytes × List Bool)) k, k ∈ keysOf l ↔ ∃ v, (k, v) ∈ l := by
    intro l k
    unfold keysOf
    rw [List.mem_toFinset, List.mem_map]
    exact ⟨fun ⟨e, he, h⟩ => ⟨e.2, by rw [← h]; exact he⟩, fun ⟨v, hv⟩ => ⟨_, hv, rfl⟩⟩
  constructor
  · ext k
    rw [Finset.mem_union, hm, hm, Finset.mem_image]
    constructor
    · rintro ⟨v, hv⟩
      obtain ⟨a, ha, e⟩ := List.mem_map.1 hv
      rcases a with i | e'
      · left; exact ⟨i, Finset.mem_univ _, congrArg Prod.fst e⟩
      · right
        refine ⟨v, mem_others.2 ?_⟩
        have : e' = (k, v) := e
        rw [← this]; exact ha
    · rintro (⟨i, -, rfl⟩ | ⟨v, hv⟩)
      · exact ⟨f i, List.mem_map.2 ⟨_, h.all i, rfl⟩⟩
      · exact ⟨v, List.mem_map.2 ⟨_, mem_others.1 hv, rfl⟩⟩
  · rw [Finset.disjoint_left]
    intro k hk hk'
    obtain ⟨i, -, rfl⟩ := Finset.mem_image.1 hk
    obtain ⟨v, hv⟩ := (hm _ _).1 hk'
    exact h.others _ (mem_others.1 hv) i rfl

/-- The others' submissions and one of each honest client fit in what arrives. -/
theorem others_length_le {α : Type} {A : List (Fin n ⊕ Bytes × α)} (h : ∀ i, Sum.inl i ∈ A) : n + (others A).length ≤ A.length := by
  have h1 : n ≤ (A.filterMap Sum.getLeft?).length := by
    have : (Finset.univ : Finset (Fin n)) ⊆ (A.filterMap Sum.getLeft?).toFinset := by
      intro i _
      rw [List.mem_toFinset, List.mem_filterMap]
      exact ⟨_, h i, rfl⟩
    have := (Finset.card_le_card this).trans (List.toFinset_card_le _)
    simpa using this
  have h2 : (A.filterMap Sum.getLeft?).length + (others A).length = A.length := by
    clear h h1
    unfold others
    induction A with
    | nil => rfl
    | cons a A ih =>
      rcases a with i | e
      · simp only [List.filterMap_cons, Sum.getLeft?_inl, Sum.getRight?_inl, List.length_cons]; omega
      · simp only [List.filterMap_cons, Sum.getLeft?_inr, Sum.getRight?_inr, List.length_cons]; omega
  omega

/-- C68 for FREQ. Honest clients, any others, any arrival order: every honest client is counted once, in the bucket of its value. The others add
`e j` to bucket `j`, where `e` depends on their submissions only, and together not more than the number of submissions that server 0 was told of
beyond one per honest client. This holds in spite of C45: a vector with several set bits can get through, but the total is bounded. -/
theorem C68_freq (c : StoreCfg) {g0 g1 : StoreRng} (hg : GoodRng intModulus g0) {nbits : ℕ} (hb : nbits ≤ 30)
    {A0 A1 : List (Fin n ⊕ Bytes × List Bool)} (hA0 : Arrives key A0) (hA1 : Arrives key A1) (ht : A0.length < 2 ^ 32)
    (hk : ∀ i, (key i).length = pkLength) (ho0 : ∀ e ∈ others A0, e.1.length = pkLength ∧ e.2.length = 2 ^ nbits)
    (ho1 : ∀ e ∈ others A1, e.1.length = pkLength ∧ e.2.length = 2 ^ nbits) (hcap : n + (keysOf (others A1)).card ≤ A0.length)
    (hsz : (n + (keysOf (others A1)).card) * 2 ^ nbits < 2 ^ 32) :
    ∃ (m : ℕ) (e : ℕ → ℕ), m ≤ (others A1).length ∧ ∑ j ∈ Finset.range (2 ^ nbits), e j ≤ A0.length - n ∧
    ∀ (raw : Fin n → U64) (arr : Fin n → List Bool) (_ : ∀ i, (arr i).length = 2 ^ nbits) (rest0 rest1 : Bytes) {st0 st1 : Store}
      (_ : StoresOk intModulus st0 st1) (ord : Map (List Bool) → Map (List Bool)) (_ : IsOrder ord), ∃ st0' st1' q,
      Ends (freqOp0 c g0 nbits A0.length (encFreqShares (fill key A0 fun i => (clientFreq nbits (raw i) (arr i)).1) ++ rest0) st0)
        (freqOp1 c g1 nbits A1.length (encFreqShares (fill key A1 fun i => (clientFreq nbits (raw i) (arr i)).2) ++ rest1) ord st1)
        (verdict (n + m) A0.length ((List.range (2 ^ nbits)).map fun j =>
          (((Finset.univ.filter fun i => (raw i).toNat % 2 ^ nbits = j).card + e j : ℕ) : ℤ)), st0') (.noAns, st1') q [] := by
  set w := 2 ^ nbits with hw
  set V := freqVec w (others A0) (others A1) with hV
  set K := keysOf (others A1) with hK
  set W := ∑ k ∈ K, weight (V k) with hW
  set G := if n + W = A0.length then K else oneHotKeys w (others A0) (others A1) with hG
  have hone : oneHotKeys w (others A0) (others A1) ⊆ bothKeys anyRow (others A0) (others A1) := Finset.filter_subset _ _
  have hbK : bothKeys anyRow (others A0) (others A1) ⊆ K := by
    intro k hk
    obtain ⟨v, hv⟩ := Option.isSome_iff_exists.1 (mem_both.1 hk).2
    exact List.mem_toFinset.2 (List.mem_map.2 ⟨_, firstOf_mem hv, rfl⟩)
  have hGK : G ⊆ K := by
    rw [hG]; split
    · exact Finset.Subset.refl _
    · exact hone.trans hbK
  have hVl : ∀ k, (V k).length = w := freqVec_length (fun e he => (ho0 e he).2) (fun e he => (ho1 e he).2)
  have hol := others_length_le hA0.all
  refine ⟨G.card, fun j => (G.filter fun k => (V k).getD j false = true).card, ?_, ?_, ?_⟩
  · refine (Finset.card_le_card hGK).trans ((List.toFinset_card_le _).trans (by rw [List.length_map]))
  · have h1 := histogram_sum G (v := V) (w := w) fun k _ => hVl k
    have h2 : (histogram w G V).sum = ((∑ j ∈ Finset.range w, (G.filter fun k => (V k).getD j false = true).card : ℕ) : ℤ) := by
      unfold histogram
      rw [← List.sum_toFinset _ List.nodup_range, List.toFinset_range, Nat.cast_sum]
    rw [h2] at h1
    have h3 : ∑ j ∈ Finset.range w, (G.filter fun k => (V k).getD j false = true).card = ∑ k ∈ G, weight (V k) := by exact_mod_cast h1
    rw [h3, hG]
    split
    · rename_i h; rw [← hW]; omega
    · have : ∑ k ∈ oneHotKeys w (others A0) (others A1), weight (V k) = (oneHotKeys w (others A0) (others A1)).card := by
        rw [Finset.card_eq_sum_ones]
        exact Finset.sum_congr rfl fun k hk => (Finset.mem_filter.1 hk).2
      rw [this]
      have := (Finset.card_le_card hone).trans (both_others_le A0 A1).1
      omega
  · intro raw arr harr rest0 rest1 st0 st1 hst ord ho
    set f0 : Fin n → List Bool := fun i => (clientFreq nbits (raw i) (arr i)).1 with hf0
    set f1 : Fin n → List Bool := fun i => (clientFreq nbits (raw i) (arr i)).2 with hf1
    have hcl := fun i => clientFreq_vec hb (raw i) (harr i)
    have sized : ∀ {A : List (Fin n ⊕ Bytes × List Bool)} {f : Fin n → List Bool}, (∀ i, (f i).length = w) →
        (∀ e ∈ others A, e.1.length = pkLength ∧ e.2.length = w) → ∀ e ∈ fill key A f, e.1.length = pkLength ∧ e.2.length = w := by
      intro A f hf hoA e he
      obtain ⟨a, ha, rfl⟩ := List.mem_map.1 he
      rcases a with i | e
      · exact ⟨hk i, hf i⟩
      · exact hoA e (mem_others.2 ha)
    have st_0 := freq_stream (sized (fun i => (hcl i).1) ho0) rest0
    have st_1 := freq_stream (sized (fun i => (hcl i).2.1) ho1) rest1
    rw [fill_length] at st_0 st_1
    obtain ⟨ek, ed⟩ := keysOf_fill_add hA1 f1
    have hcard : (keysOf (fill key A1 f1)).card = n + K.card := by
      rw [ek, Finset.card_union_of_disjoint ed, Finset.card_image_of_injective _ hA0.inj, Finset.card_univ, Fintype.card_fin]
    set v := freqVec w (fill key A0 f0) (fill key A1 f1) with hv
    have hhon : ∀ i, v (key i) = (List.range w).map fun j => decide (j = (raw i).toNat % w) := by
      intro i
      rw [hv]
      unfold freqVec
      rw [firstOf_honest hA0 i rfl, firstOf_honest hA1 i rfl]
      exact (hcl i).2.2
    have hnk : ∀ k ∈ K, ∀ i, key i ≠ k := by
      rintro k hk i rfl
      exact Finset.disjoint_left.1 ed (Finset.mem_image.2 ⟨i, Finset.mem_univ _, rfl⟩) hk
    have hoth : ∀ k ∈ K, v k = V k := by
      intro k hk
      rw [hv, hV]
      unfold freqVec
      rw [firstOf_others A0 _ (hnk k hk), firstOf_others A1 _ (hnk k hk)]
    have hwt : ∀ i, weight (v (key i)) = 1 := fun i => by rw [hhon i]; exact weight_unit (Nat.mod_lt _ (by positivity))
    have htot : totalWeight w (fill key A0 f0) (fill key A1 f1) = n + W := by
      have e1 : ∑ i, weight (freqVec w (fill key A0 f0) (fill key A1 f1) (key i)) = n := by
        rw [Finset.sum_congr rfl fun i _ => hwt i]
        simp
      have e2 : ∑ k ∈ K, weight (freqVec w (fill key A0 f0) (fill key A1 f1) k) = W :=
        Finset.sum_congr rfl fun k hk => congrArg weight (hoth k hk)
      unfold totalWeight
      rw [ek, Finset.sum_union ed, Finset.sum_image fun i _ j _ h => hA0.inj h, e1, e2]
    have hhist : histogram w (Finset.univ.image key ∪ G) v = (List.range w).map fun j =>
        (((Finset.univ.filter fun i => (raw i).toNat % w = j).card + (G.filter fun k => (V k).getD j false = true).card : ℕ) : ℤ) := by
      unfold histogram
      refine List.map_congr_left fun j hj => ?_
      have hjw := List.mem_range.1 hj
      congr 1
      rw [Finset.filter_union, Finset.card_union_of_disjoint (Finset.disjoint_of_subset_left (Finset.filter_subset _ _)
        (Finset.disjoint_of_subset_right ((Finset.filter_subset _ _).trans hGK) ed))]
      congr 1
      · rw [Finset.filter_image, Finset.card_image_of_injective _ hA0.inj]
        congr 1
        refine Finset.filter_congr fun i _ => ?_
        rw [hhon i]
        simp [List.getD_eq_getElem?_getD, hjw]
        exact eq_comm
      · congr 1
        exact Finset.filter_congr fun k hk => by rw [hoth k (hGK hk)]
    obtain ⟨st0', st1', -, h2, h3⟩ := C44_freq_op c (g1 := g1) hg hb ht st_0 st_1 (by rw [hcard]; exact hcap) (by rw [hcard]; exact hsz) hst ord ho
    by_cases hbr : n + W = A0.length
    · refine ⟨st0', st1', encBools (List.replicate (n + K.card) true), ?_⟩
      have := h2 (by rw [← hw, htot]; exact hbr)
      have hGe : G = K := if_pos hbr
      rw [hGe] at hhist ⊢
      rw [hcard, ek, ← hw, ← hv, hhist] at this
      exact this
    · refine ⟨st0', st1', [], ?_⟩
      have := h3 (by rw [← hw, htot]; exact hbr)
      have hGe : G = oneHotKeys w (others A0) (others A1) := if_neg hbr
      have hoh : oneHotKeys w (fill key A0 f0) (fill key A1 f1) = Finset.univ.image key ∪ G := by
        rw [hGe]
        exact (filter_split hA0 hA1 (fun _ => rfl) (fun _ => rfl) hwt (fun k hk => by
          unfold freqVec
          rw [firstOf_others A0 _ hk, firstOf_others A1 _ hk])).1
      have hdis : Disjoint (Finset.univ.image key) G := Finset.disjoint_of_subset_right hGK ed
      rw [← hw, ← hv, hoh, hhist, Finset.card_union_of_disjoint hdis, Finset.card_image_of_injective _ hA0.inj, Finset.card_univ, Fintype.card_fin] at this
      exact this

/-! ## Concrete cases -/

example : ∃ A : List (Fin 1 ⊕ Bytes × List Bool), Arrives keyH A ∧ (∀ i, (keyH i).length = pkLength) ∧
    (∀ e ∈ others A, e.1.length = pkLength ∧ e.2.length = 2 ^ 1) ∧ 1 + (keysOf (others A)).card ≤ A.length ∧
    (1 + (keysOf (others A)).card) * 2 ^ 1 < 2 ^ 32 :=
  ⟨_, arrives_one [true, true], fun _ => by simp [keyH, pkLength], by intro e he; simp [others] at he; subst he; simp [keyO, pkLength],
    by decide, by decide⟩

/-- One honest client with the value 3 and another who sends zeros with a packet of zeros. -/
example : ∃ (t : RootTables) (f0 f1 : Fin 1 → SnipRow) (real : Fin 1 → U64) (A : List (Fin 1 ⊕ Bytes × SnipRow)) (s0 s1 : Bytes) (st : SnipState)
    (r : Fin 1 → Draws varCircuit), Arrives keyH A ∧ (others A).length = 1 ∧ RootCalls [2] t ∧ SnipOk 5 0 0 st ∧
    (∀ i, clientVar 4 3#64 0#64 0#64 t (r i).1 = some (real i, f0 i, f1 i)) ∧
    VarStream A.length s0 (fill keyH A f0) ∧ VarStream A.length s1 (fill keyH A f1) ∧ (1 + (others A).length) * 2 ^ (2 * 4) < intModulus ∧
    ∀ k, ((varVal 4 (others A) (others A) 1 k : ℕ) : ZMod intModulus) = (varVal 4 (others A) (others A) 0 k : ZMod intModulus) ^ 2 := by
  obtain ⟨t0, h0⟩ := (⟨_, RootCalls.start⟩ : ∃ t, RootCalls [] t)
  obtain ⟨t, ht⟩ := C30_sizes (c := varCircuit) (by decide) [] _ .start
  obtain ⟨real, r0, r1, w, h, -, -, -, l0, l1, -, -, -, hpk⟩ := clientVar_spec (by omega : 4 ≤ 31) ht ⟨[], 3#64, 0#64, 0#64, _⟩ (zeroDraws varCircuit)
  have hz : PacketOk varCircuit (zeroPacket 1) ∧ ∀ y ∈ (zeroPacket 1).all, Fits y := by
    refine ⟨zeroPacket_ok varCircuit, fun y hy => ?_⟩
    have : y = 0 := by simp [Packet.all, zeroPacket] at hy; tauto
    subst this
    simp only [Fits]; decide
  let A : List (Fin 1 ⊕ Bytes × SnipRow) := [Sum.inr (keyO, ⟨[0#64, 0#64], zeroPacket 1⟩), Sum.inl 0]
  have hst : ∀ q : SnipRow, q.vals.length = 2 → (PacketOk varCircuit q.packet ∧ ∀ y ∈ q.packet.all, Fits y) →
      ∃ s, VarStream A.length s (fill keyH A fun _ => q) := by
    intro q h1 h2
    obtain ⟨bs, -, h⟩ := var_stream (subs := fill keyH A fun _ => q) (by
      intro e he
      simp only [A, fill, List.map_cons, List.map_nil, Sum.elim_inr, Sum.elim_inl, id, List.mem_cons, List.not_mem_nil, or_false] at he
      rcases he with rfl | rfl
      · exact ⟨by simp [keyO, pkLength], rfl, hz⟩
      · exact ⟨by simp [keyH, pkLength], h1, h2⟩)
    exact ⟨bs, [], by simpa [fill] using h []⟩
  obtain ⟨p0, p1⟩ := share_sizes (zeroDraws varCircuit) hpk
  obtain ⟨s0, hs0⟩ := hst r0 l0 p0
  obtain ⟨s1, hs1⟩ := hst r1 l1 p1
  refine ⟨t, fun _ => r0, fun _ => r1, fun _ => real, A, s0, s1, _, fun _ => ⟨_, zeroDraws varCircuit⟩, arrives_one _, rfl, ht, fresh_ok h0,
    fun _ => h, hs0, hs1, by decide, fun k => ?_⟩
  have hA : others A = [(keyO, ⟨[0#64, 0#64], zeroPacket 1⟩)] := rfl
  have hv : ∀ j, varVal 4 (others A) (others A) j k = 0 := by
    intro j
    unfold varVal
    split
    · rename_i r0 r1 e0 e1
      rw [e0] at e1; cases e1
      simp
    · rfl
  rw [hv, hv]; simp

/-- One honest client with the feature 2 and the label 5 and another who sends zeros with a packet of zeros. -/
example : ∃ (c : Circuit) (t : RootTables) (f0 f1 : Fin 1 → LinRow) (cl : Fin 1 → LinClient) (A : List (Fin 1 ⊕ Bytes × LinRow)) (s0 s1 : Bytes)
    (st : SnipState), checkLinReg intModulus 2 = some c ∧ linMul 2 < 2 ^ 18 ∧ Arrives keyH A ∧ (others A).length = 1 ∧ RootCalls [npow2 (linMul 2)] t ∧
    SnipOk 5 0 0 st ∧ (∀ i, (cl i).Sized 2) ∧ (∀ i, ValidRand intModulus c (cl i).rand) ∧ (∀ i, (cl i).data 4 = ([2], 5)) ∧
    (∀ i, clientLin 2 4 (cl i).draws t (cl i).rand = some (f0 i, f1 i)) ∧
    LinStream 2 A.length s0 (fill keyH A f0) ∧ LinStream 2 A.length s1 (fill keyH A f1) ∧ (1 + (others A).length) * 2 ^ (2 * 4) < intModulus ∧
    ∀ k cs, LinPasses c 5 4 (others A) (others A) cs k →
      ∃ xs y, xs.length = 2 - 1 ∧ (linAt 4 (others A) (others A) k).all.map (fun v : ℕ => (v : ZMod intModulus)) = regressionRow xs y := by
  obtain ⟨t0, h0⟩ := (⟨_, RootCalls.start⟩ : ∃ t, RootCalls [] t)
  obtain ⟨c, hc, hcok, hmul, -⟩ := linCircuit (d := 2) (by norm_num) (by decide)
  obtain ⟨t, ht⟩ := C30_sizes (c := c) (by rw [hmul]; decide) [] _ .start
  rw [hmul] at ht
  let cl : LinClient := ⟨keyO, ⟨[2#64], [6#64], [100#64], [77#64], 5#64, 9#64⟩,
    ⟨0, 0, List.replicate (npow2 c.mulGates.length) 0, 0, 0, 0, List.replicate c.mulGates.length 0, 0, 0, 0, 0, 0⟩⟩
  have hsz : cl.Sized 2 := ⟨by simp [cl, keyO, pkLength], rfl, rfl, rfl, rfl⟩
  obtain ⟨r0, r1, w, h, -, -, ⟨a1, a2, a3⟩, ⟨b1, b2, b3⟩, -, -, hpk, -⟩ :=
    clientLin_full (by norm_num) (by decide) (by norm_num : 4 ≤ 31) hc ht hsz (zeroDraws c)
  have hz : PacketOk c (zeroPacket c.mulGates.length) ∧ ∀ y ∈ (zeroPacket c.mulGates.length).all, Fits y := by
    refine ⟨zeroPacket_ok c, fun y hy => ?_⟩
    have : y = 0 := by simp [Packet.all, zeroPacket] at hy; tauto
    subst this
    simp only [Fits]; decide
  let z : LinRow := ⟨[0#64], 0#64, [0#64], [0#64], zeroPacket c.mulGates.length⟩
  let A : List (Fin 1 ⊕ Bytes × LinRow) := [Sum.inr (keyO, z), Sum.inl 0]
  have hst : ∀ q : LinRow, (LinRowOk c 2 q ∧ ∀ y ∈ q.packet.all, Fits y) → ∃ s, LinStream 2 A.length s (fill keyH A fun _ => q) := by
    intro q hq
    obtain ⟨bs, -, h⟩ := lin_stream (d := 2) (by norm_num) hmul (subs := fill keyH A fun _ => q) (by
      intro e he
      simp only [A, fill, List.map_cons, List.map_nil, Sum.elim_inr, Sum.elim_inl, id, List.mem_cons, List.not_mem_nil, or_false] at he
      rcases he with rfl | rfl
      · exact ⟨by simp [keyO, pkLength], ⟨rfl, rfl, rfl, hz.1⟩, hz.2⟩
      · exact ⟨by simp [keyH, pkLength], hq⟩)
    exact ⟨bs ++ [], by simpa [fill] using h []⟩
  obtain ⟨p0, p1⟩ := share_sizes (zeroDraws c) hpk
  obtain ⟨s0, hs0⟩ := hst r0 ⟨⟨a1, a2, a3, p0.1⟩, p0.2⟩
  obtain ⟨s1, hs1⟩ := hst r1 ⟨⟨b1, b2, b3, p1.1⟩, p1.2⟩
  refine ⟨c, t, fun _ => r0, fun _ => r1, fun _ => cl, A, s0, s1, _, hc, by decide, arrives_one _, rfl, ht, fresh_ok h0, fun _ => hsz,
    fun _ => zeroDraws c, fun _ => rfl, fun _ => h, hs0, hs1, (by decide : (1 + 1) * 2 ^ (2 * 4) < intModulus), fun k cs hp => ?_⟩
  obtain ⟨q0, q1, e0, e1, -⟩ := hp
  have hA : others A = [(keyO, z)] := rfl
  have hq : q0 = z ∧ q1 = z := by
    have h0 := firstOf_mem e0
    have h1 := firstOf_mem e1
    rw [hA] at h0 h1
    simp at h0 h1
    exact ⟨h0.2, h1.2⟩
  refine ⟨[0], 0, rfl, ?_⟩
  unfold linAt
  rw [e0, hq.1]
  simp [z, linRec, xors, LinVal.all, regressionRow, pairProducts]

end Verif

import Verif.LemmasBatchCount

/-! # C68: how rarely a malformed submission of a batch gets through (VAR, STDDEV, LINREG) -/

namespace Verif

variable {n : ℕ} {key : Fin n → Bytes}

/-- A key that the others submitted at both servers is in server 1's list. -/
theorem both_idx {α : Type} {ok : α → Bool} {A0 A1 : List (Fin n ⊕ Bytes × α)} (hA0 : Arrives key A0) (f1 : Fin n → α) {ord : Map α → Map α}
    (ho : IsOrder ord) {k : Bytes} (hk : k ∈ bothKeys ok (others A0) (others A1)) :
    (ord (admit ok (fill key A1 f1) [])).keys.idxOf k < (ord (admit ok (fill key A1 f1) [])).keys.length := by
  rw [List.idxOf_lt_length_iff]
  have h1 : (List.lookup k (admit ok (fill key A1 f1) [])).isSome = true := by
    have h2 := C34_first_admissible ok (fill key A1 f1) k
    rw [firstOf_others A1 f1 (not_key_of_both hA0 hk)] at h2
    rw [h2]
    exact (mem_both.1 hk).2
  obtain ⟨v, hv⟩ := Option.isSome_iff_exists.1 h1
  exact List.mem_map.2 ⟨(k, v), (ho _).mem_iff.2 (mem_of_lookup hv), rfl⟩

/-- The union bound for one batch: all but few choices let through good submissions of the others only. -/
theorem batch_sound {α : Type} {ok : α → Bool} {A0 A1 : List (Fin n ⊕ Bytes × α)} (hA0 : Arrives key A0) (f1 : Fin n → α) {ord : Map α → Map α}
    (ho : IsOrder ord) {K B : ℕ} {Pass : ℤ → List ℤ → Bytes → Prop} {Good : Bytes → Prop}
    (hboth : ∀ x cs k, Pass x cs k → k ∈ bothKeys ok (others A0) (others A1))
    (hch : ∀ k ∈ bothKeys ok (others A0) (others A1), ¬ Good k → ∃ bad : Finset (ZMod intModulus), bad.card ≤ B ∧
      ∀ x : ℤ, Canon x intModulus → (x : ZMod intModulus) ∉ bad →
        {cs : List ℤ | cs.length = K + 1 ∧ (∀ y ∈ cs, IsDraw y intModulus) ∧ Pass x cs k}.ncard = intModulus ^ K) :
    let M := (ord (admit ok (fill key A1 f1) [])).keys.length
    ∃ Bad : Finset (BatchDraws intModulus K M), Bad.card ≤ (others A0).length * ((B + 1) * intModulus ^ ((K + 1) * M)) ∧
      ∀ ω ∉ Bad, ∀ cs : ℕ → List ℤ, (∀ i : Fin M, cs i = coefList (ω.2 i)) →
        ∀ k, Pass (ω.1.val : ℤ) (cs ((ord (admit ok (fill key A1 f1) [])).keys.idxOf k)) k → Good k := by
  intro M
  classical
  have hne : NeZero intModulus := ⟨by decide⟩
  set S := (bothKeys ok (others A0) (others A1)).filter fun k => ¬ Good k with hS
  obtain ⟨Bad, hc, hB⟩ := batch_count (M := M) S (fun k => (ord (admit ok (fill key A1 f1) [])).keys.idxOf k)
    (fun k hk => both_idx hA0 f1 ho (Finset.mem_filter.1 hk).1) (fun k x cs => Pass x cs k)
    (fun k hk => hch k (Finset.mem_filter.1 hk).1 (Finset.mem_filter.1 hk).2)
  refine ⟨Bad, hc.trans (Nat.mul_le_mul_right _ ((Finset.card_le_card (Finset.filter_subset _ _)).trans (both_others_le A0 A1).1)), ?_⟩
  intro ω hω cs hcs k hp
  by_contra hg
  have hk : k ∈ S := Finset.mem_filter.2 ⟨hboth _ _ _ hp, hg⟩
  have := hcs ⟨_, both_idx hA0 f1 ho (Finset.mem_filter.1 hk).1⟩
  exact hB ω hω k hk (by rw [← this]; exact hp)

/-- C68 for VAR and STDDEV. Once everything is sent, the check point and the coefficients are drawn, `p^(2M+1)` choices for `M` submissions. For all
but `5 m p^(2M)` of them, that is a share of at most `5m/p` where `m` is the number of the others' submissions, the answer is, up to rounding,
the variance of the honest values and at most `m` values below `2^nbits`. -/
theorem C68_var_sound (fma std : Bool) {nbits : ℕ} (hb : nbits ≤ 23) (hn : 0 < n) {A0 A1 : List (Fin n ⊕ Bytes × SnipRow)}
    (hA0 : Arrives key A0) (hA1 : Arrives key A1) (hlen : A1.length < 2 ^ 32) {t : RootTables} {l : List ℕ} (hrc : RootCalls (2 :: l) t)
    (rawReal rawShare rawShare2 : Fin n → U64) (r : Fin n → Draws varCircuit) {real : Fin n → U64} {f0 f1 : Fin n → SnipRow}
    (hc : ∀ i, clientVar nbits (rawReal i) (rawShare i) (rawShare2 i) t (r i).1 = some (real i, f0 i, f1 i))
    {s0 s1 : Bytes} (h0 : VarStream A0.length s0 (fill key A0 f0)) (h1 : VarStream A1.length s1 (fill key A1 f1))
    (hp : (n + (others A0).length) * 2 ^ (2 * nbits) < intModulus) (ord : Map SnipRow → Map SnipRow) (ho : IsOrder ord) :
    let M := (ord (admit (varFits nbits) (fill key A1 f1) [])).keys.length
    ∃ Bad : Finset (BatchDraws intModulus 1 M), Bad.card ≤ (others A0).length * (5 * intModulus ^ (2 * M)) ∧
    ∀ ω ∉ Bad, ∀ {uses pos : ℕ} {st0 st1 : SnipState} (_ : SnipOk (ω.1.val : ℤ) uses pos st0) (_ : SnipOk (ω.1.val : ℤ) uses pos st1)
      (coef : ℕ → ℤ) (_ : ∀ i : Fin M, coefs coef pos 2 i = coefList (ω.2 i)) (raw0 raw1 : ℕ → ℕ → ℕ → U64),
    ∃ (extra : List ℕ) (a : ℝ) (st0' st1' : SnipState), extra.length ≤ (others A0).length ∧ extra.length ≤ (others A1).length ∧
      (∀ v ∈ extra, v < 2 ^ nbits) ∧
      let vs := (List.ofFn fun i => (rawReal i).toNat % 2 ^ nbits) ++ extra
      NearVar std (listVar vs) (meanSq vs) (∀ u ∈ vs, ∀ v ∈ vs, u = v) a ∧
      Always (varOp0 fma std nbits A0.length s0 coef raw0 st0) (varOp1 nbits A1.length s1 coef raw1 st1 ord)
        (verdict vs.length A0.length (some a), st0') (.noAns, st1') := by
  intro M
  have hrow : ∀ {A : List (Fin n ⊕ Bytes × SnipRow)} {s : Bytes} {f : Fin n → SnipRow} (_ : VarStream A.length s (fill key A f)) {k : Bytes} {v : SnipRow},
      firstOf (varFits nbits) (others A) k = some v → SnipRowOk varCircuit 2 v := by
    intro A s f h k v e
    exact h.spec.2.2 (k, v) (List.mem_map.2 ⟨_, mem_others.1 (firstOf_mem e), rfl⟩)
  obtain ⟨Bad, hB, hG⟩ := batch_sound (ok := varFits nbits) (A0 := A0) (A1 := A1) hA0 f1 ho (K := 1) (B := 4)
    (Pass := fun x cs k => Passes varCircuit x (varWidths nbits) (varFits nbits) (others A0) (others A1) cs k)
    (Good := fun k => ((varVal nbits (others A0) (others A1) 1 k : ℕ) : ZMod intModulus) =
      (varVal nbits (others A0) (others A1) 0 k : ZMod intModulus) ^ 2)
    (fun x cs k ⟨r0, r1, e0, e1, _⟩ => mem_both.2 ⟨by rw [e0]; rfl, by rw [e1]; rfl⟩)
    (fun k hk hbad => by
      obtain ⟨⟨r0, e0⟩, ⟨r1, e1⟩⟩ := (mem_both.1 hk).imp Option.isSome_iff_exists.1 Option.isSome_iff_exists.1
      rw [pow_one]
      exact C40_cheater e0 e1 (hrow h0 e0) (hrow h1 e1) hbad)
  refine ⟨Bad, hB, ?_⟩
  intro ω hω uses pos st0 st1 hs0 hs1 coef hcoef raw0 raw1
  exact C68_var_values fma std hb hn hA0 hA1 hlen hrc rawReal rawShare rawShare2 r hc h0 h1 hp hs0 hs1 coef raw0 raw1 ord ho
    (hG ω hω (fun i => coefs coef pos 2 i) hcoef)

/-- C68 for LINREG. Once everything is sent, the check point and the coefficients are drawn. For all but a share of at most `(2N+1)m/p` of the
choices, where `m` is the number of the others' submissions and `N` the size of the polynomials, the answer is the least-squares fit of the
honest data and at most `m` further data points with entries below `2^nbits`. -/
theorem C68_linreg_sound {d : ℕ} (hd : 1 ≤ d) (hsm : linMul d < 2 ^ 18) {nbits : ℕ} (hb : nbits ≤ 23) (hn : 0 < n) {c : Circuit}
    (hcirc : checkLinReg intModulus d = some c) {A0 A1 : List (Fin n ⊕ Bytes × LinRow)}
    (hA0 : Arrives key A0) (hA1 : Arrives key A1) (hlen0 : A0.length < 2 ^ 64) (hlen : A1.length < 2 ^ 32) {t : RootTables} {l : List ℕ}
    (hrc : RootCalls (npow2 (linMul d) :: l) t)
    (cl : Fin n → LinClient) (hsz : ∀ i, (cl i).Sized d) (hr : ∀ i, ValidRand intModulus c (cl i).rand) {f0 f1 : Fin n → LinRow}
    (hc : ∀ i, clientLin d nbits (cl i).draws t (cl i).rand = some (f0 i, f1 i))
    {s0 s1 : Bytes} (h0 : LinStream d A0.length s0 (fill key A0 f0)) (h1 : LinStream d A1.length s1 (fill key A1 f1))
    (hp : (n + (others A0).length) * 2 ^ (2 * nbits) < intModulus) (ord : Map LinRow → Map LinRow) (ho : IsOrder ord) :
    let M := (ord (admit (linFits nbits) (fill key A1 f1) [])).keys.length
    ∃ Bad : Finset (BatchDraws intModulus (linMul d) M),
      Bad.card ≤ (others A0).length * ((2 * npow2 (linMul d) + 1) * intModulus ^ ((linMul d + 1) * M)) ∧
    ∀ ω ∉ Bad, ∀ {uses pos : ℕ} {st0 st1 : SnipState} (_ : SnipOk (ω.1.val : ℤ) uses pos st0) (_ : SnipOk (ω.1.val : ℤ) uses pos st1)
      (coef : ℕ → ℤ) (_ : ∀ i : Fin M, coefs coef pos (linMul d + 1) i = coefList (ω.2 i)) (raw0 raw1 : ℕ → ℕ → ℕ → U64) (u : ℕ → ℕ → U64),
    ∃ (extra : List (List ℕ × ℕ)) (r : Option (List ℚ)) (st0' st1' : SnipState), extra.length ≤ (others A0).length ∧
      extra.length ≤ (others A1).length ∧ (∀ q ∈ extra, q.1.length = d - 1 ∧ (∀ v ∈ q.1, v < 2 ^ nbits) ∧ q.2 < 2 ^ nbits) ∧
      let data := (List.ofFn fun i => (cl i).data nbits) ++ extra
      Always (linOp0 nbits A0.length s0 coef raw0 u st0) (linOp1 nbits A1.length s1 coef raw1 st1 ord)
        (verdict data.length A0.length r, st0') (.noAns, st1') ∧
      ((normalMatrix d data).det = 0 → r = none) ∧
      ((normalMatrix d data).det ≠ 0 → ∃ co : List ℚ, r = some co ∧ co.length = d ∧
        ∀ b : ℕ → ℝ, rss d data (fun i => (co.getD i 0 : ℚ)) ≤ rss d data b ∧
          (rss d data b = rss d data (fun i => (co.getD i 0 : ℚ)) → ∀ i < d, b i = (co.getD i 0 : ℚ))) := by
  intro M
  obtain ⟨c', e', -, hmul, -⟩ := linCircuit hd hsm
  rw [hcirc] at e'; cases e'
  have hrow : ∀ {A : List (Fin n ⊕ Bytes × LinRow)} {s : Bytes} {f : Fin n → LinRow} (_ : LinStream d A.length s (fill key A f)) {k : Bytes} {v : LinRow},
      firstOf (linFits nbits) (others A) k = some v → LinRowOk c d v := by
    intro A s f h k v e
    exact (h.spec hmul).2.2 (k, v) (List.mem_map.2 ⟨_, mem_others.1 (firstOf_mem e), rfl⟩)
  obtain ⟨Bad, hB, hG⟩ := batch_sound (ok := linFits nbits) (A0 := A0) (A1 := A1) hA0 f1 ho (K := linMul d) (B := 2 * npow2 (linMul d))
    (Pass := fun x cs k => LinPasses c x nbits (others A0) (others A1) cs k)
    (Good := fun k => ∃ xs y, xs.length = d - 1 ∧
      (linAt nbits (others A0) (others A1) k).all.map (fun v : ℕ => (v : ZMod intModulus)) = regressionRow xs y)
    (fun x cs k ⟨r0, r1, e0, e1, _⟩ => mem_both.2 ⟨by rw [e0]; rfl, by rw [e1]; rfl⟩)
    (fun k hk hbad => by
      obtain ⟨⟨r0, e0⟩, ⟨r1, e1⟩⟩ := (mem_both.1 hk).imp Option.isSome_iff_exists.1 Option.isSome_iff_exists.1
      exact C42_cheater hd hsm hcirc e0 e1 (hrow h0 e0) (hrow h1 e1) hbad)
  refine ⟨Bad, hB, ?_⟩
  intro ω hω uses pos st0 st1 hs0 hs1 coef hcoef raw0 raw1 u
  exact C68_linreg hd hsm hb hn hcirc hA0 hA1 hlen0 hlen hrc cl hsz hr hc h0 h1 hp hs0 hs1 coef raw0 raw1 u ord ho
    (hG ω hω (fun i => coefs coef pos (linMul d + 1) i) hcoef)

/-- The bounds are below the number of choices: with `m` submissions of the others and `B` bad points each there is a choice outside every set `Bad`
of the size above, provided that `m (B+1) < p`. -/
theorem C68_some_choice {K M m B : ℕ} (h : m * (B + 1) < intModulus) (Bad : Finset (BatchDraws intModulus K M))
    (hB : Bad.card ≤ m * ((B + 1) * intModulus ^ ((K + 1) * M))) : ∃ ω, ω ∉ Bad := by
  have hne : NeZero intModulus := ⟨by decide⟩
  by_contra hall
  push Not at hall
  have h1 : Bad = Finset.univ := Finset.eq_univ_of_forall hall
  have h2 : Bad.card = intModulus ^ ((K + 1) * M + 1) := by
    rw [h1, Finset.card_univ]
    exact batchDraws_card intModulus K M
  rw [h2, pow_succ', ← mul_assoc] at hB
  exact absurd (Nat.le_of_mul_le_mul_right hB (pow_pos (NeZero.pos intModulus) _)) (not_le.2 h)

/-- Up to a million submissions of the others to VAR leave a choice. -/
example : 1000000 * (4 + 1) < intModulus ∧ ∀ Bad : Finset (BatchDraws intModulus 1 3),
    Bad.card ≤ 1000000 * ((4 + 1) * intModulus ^ ((1 + 1) * 3)) → ∃ ω, ω ∉ Bad :=
  ⟨by decide, fun Bad h => C68_some_choice (by decide) Bad h⟩

/-- Every choice is that of some sequence of coefficients. -/
theorem coef_exists {K M : ℕ} (pos : ℕ) (ω : Fin M → Fin (K + 1) → ZMod intModulus) :
    ∃ coef : ℕ → ℤ, ∀ i : Fin M, coefs coef pos (K + 1) i = coefList (ω i) := by
  classical
  let q : ℕ → ℕ := fun a => (a - pos) / (K + 1)
  let e : ℕ → ℕ := fun a => (a - pos) % (K + 1)
  refine ⟨fun a => if h : q a < M then ((ω ⟨q a, h⟩ ⟨e a, Nat.mod_lt _ (Nat.succ_pos _)⟩).val : ℤ) else 0, fun i => ?_⟩
  unfold coefs coefList
  apply List.ext_getElem (by simp)
  intro j h1 h2
  have hj : j < K + 1 := by simpa using h1
  have hq : q (pos + i * (K + 1) + j) = i := by
    show (pos + i * (K + 1) + j - pos) / (K + 1) = i
    rw [show pos + (i : ℕ) * (K + 1) + j - pos = j + i * (K + 1) by omega, Nat.add_mul_div_right _ _ (Nat.succ_pos _), Nat.div_eq_of_lt hj, Nat.zero_add]
  have he : e (pos + i * (K + 1) + j) = j := by
    show (pos + i * (K + 1) + j - pos) % (K + 1) = j
    rw [show pos + (i : ℕ) * (K + 1) + j - pos = j + i * (K + 1) by omega, Nat.add_mul_mod_self_right, Nat.mod_eq_of_lt hj]
  simp only [List.getElem_map, List.getElem_range, List.getElem_ofFn]
  rw [dif_pos (by rw [hq]; exact i.2)]
  congr 3 <;> simp [hq, he]

end Verif

import Verif.LemmasViewWords
import Verif.PropsViewFreq

/-! # C64 and C65, server 1, for masks drawn as 64-bit words

The masks of server 0 are 64-bit words that are reduced modulo `p`. Exact equality of server 1's views is false for them (`C64_mask_bias`). Here: the
views agree whenever the masks that are used are fair words, and a mask is unfair for 126375227162625 of the 2^64 words (`C64_unfair_count`), about one in
145966. A round with `N` keys at server 1 uses `3 * nbits * N` masks in VAR. -/

namespace Verif

variable {n : ℕ} {key : Fin n → Bytes}

/-- The number of unfair words: 126375227162625 of the 2^64, about one in 145966. -/
theorem C64_unfair_count : Nat.card {w : U64 // ¬ Fair w} = 126375227162625 := by
  have e : {w : U64 // ¬ Fair w} ≃ Fin 126375227162625 :=
    { toFun := fun w => ⟨w.1.toNat - 131071 * intModulus, by
        have := w.1.isLt
        have h : intModulus = 140737597931521 := rfl
        rw [h]; omega⟩
      invFun := fun i => ⟨BitVec.ofNat 64 (131071 * intModulus + i.1), by
        have := i.2
        have h : intModulus = 140737597931521 := rfl
        rw [Fair, BitVec.toNat_ofNat, h, Nat.mod_eq_of_lt (by omega)]; omega⟩
      left_inv := fun w => by
        apply Subtype.ext
        apply BitVec.eq_of_toNat_eq
        have h1 := w.1.isLt
        have h2 := w.2
        rw [Fair] at h2
        show (BitVec.ofNat 64 (131071 * intModulus + (w.1.toNat - 131071 * intModulus))).toNat = _
        rw [BitVec.toNat_ofNat, Nat.add_sub_cancel' (by omega), Nat.mod_eq_of_lt h1]
      right_inv := fun i => by
        apply Fin.ext
        have := i.2
        have h : intModulus = 140737597931521 := rfl
        show (BitVec.ofNat 64 (131071 * intModulus + i.1)).toNat - 131071 * intModulus = i.1
        rw [BitVec.toNat_ofNat, h, Nat.mod_eq_of_lt (by omega)]; omega }
  rw [Nat.card_congr e, Nat.card_eq_fintype_card, Fintype.card_fin]

/-- C64 for VAR and STDDEV, server 1, with the masks as the code draws them. Missing: draws in which some used mask is unfair. -/
theorem C64_var_server1_words_partial (fma std : Bool) {nbits : ℕ} (hb : nbits ≤ 24) (hn : 0 < n) {A0 A1 : List (Fin n ⊕ Bytes × SnipRow)}
    (hA0 : Arrives key A0) (hA1 : Arrives key A1) (hlen : A1.length < 2 ^ 32) (rawReal rawReal' : Fin n → U64)
    {t : RootTables} {l : List ℕ} (hrc : RootCalls (2 :: l) t) {x : ℤ} {uses pos : ℕ} {st0 st1 : SnipState} (hs0 : SnipOk x uses pos st0)
    (hs1 : SnipOk x uses pos st1) (coef : ℕ → ℤ) (raw1 : ℕ → ℕ → ℕ → U64) (ord : Map SnipRow → Map SnipRow) (ho : IsOrder ord)
    (hby : ByKeys ord) :
    ∃ d d2 : Fin n → U64, ∀ rawShare rawShare2 : Fin n → U64, ∃ τ : ℕ → ℕ → ℕ → (U64 ≃ U64), (∀ i j k w, Fair (τ i j k w) ↔ Fair w) ∧
    ∀ raw0 : ℕ → ℕ → ℕ → U64, (∀ i j k, i < A1.length → k < [nbits, nbits * 2].getD j 0 → Fair (raw0 i j k)) →
    ∃ e : Fin n → (Draws varCircuit ≃ Draws varCircuit), (∀ i r, (e i r).1.f0 = r.1.f0 ∧ (e i r).1.g0 = r.1.g0) ∧
    ∀ r : Fin n → Draws varCircuit, ∃ f0 f0' f1 : Fin n → SnipRow,
      (∀ i, clientVar nbits (rawReal i) (rawShare i) (rawShare2 i) t (r i).1 = some (rawReal i % (1#64 <<< nbits), f0 i, f1 i)) ∧
      (∀ i, clientVar nbits (rawReal' i) (rawShare i ^^^ d i) (rawShare2 i ^^^ d2 i) t (e i (r i)).1 =
        some (rawReal' i % (1#64 <<< nbits), f0' i, f1 i)) ∧
      ∀ s0 s0' s1, VarStream A0.length s0 (fill key A0 f0) → VarStream A0.length s0' (fill key A0 f0') →
        VarStream A1.length s1 (fill key A1 f1) → ∃ v,
        Sees1 (varOp0 fma std nbits A0.length s0 coef raw0 st0) (varOp1 nbits A1.length s1 coef raw1 st1 ord) v ∧
        Sees1 (varOp0 fma std nbits A0.length s0' coef (fun i j k => τ i j k (raw0 i j k)) st0) (varOp1 nbits A1.length s1 coef raw1 st1 ord) v := by
  obtain ⟨d, d2, H⟩ := C64_var_server1_partial fma std hb hn hA0 hA1 hlen rawReal rawReal' hrc hs0 hs1 coef raw1 ord ho hby
  refine ⟨d, d2, fun rawShare rawShare2 => ?_⟩
  obtain ⟨σ, H⟩ := H rawShare rawShare2
  refine ⟨fun i j k => wordEquiv (σ i j k), fun i j k w => onWord_fair _ w, fun raw0 hraw => ?_⟩
  obtain ⟨e, he, H⟩ := H fun i j k => residue (raw0 i j k)
  refine ⟨e, he, fun r => ?_⟩
  obtain ⟨f0, f0', f1, c1, c2, H⟩ := H r
  refine ⟨f0, f0', f1, c1, c2, fun s0 s0' s1 h0 h0' h1 => ?_⟩
  obtain ⟨v, v1, v2⟩ := H s0 s0' s1 h0 h0' h1
  obtain ⟨-, k1, -⟩ := h1.spec
  have hm : varCircuit.mulGates.length = 1 := rfl
  have swap : ∀ {s : Bytes} {subs : List (Bytes × SnipRow)}, VarStream A0.length s subs → ∀ {raw raw' : ℕ → ℕ → ℕ → U64},
      (∀ i j k, i < A1.length → k < (varWidths nbits).getD j 0 → redMod modW (raw i j k) = redMod modW (raw' i j k)) →
      Sees1 (varOp0 fma std nbits A0.length s coef raw st0) (varOp1 nbits A1.length s1 coef raw1 st1 ord) v →
      Sees1 (varOp0 fma std nbits A0.length s coef raw' st0) (varOp1 nbits A1.length s1 coef raw1 st1 ord) v := by
    intro s subs hs raw raw' hr hv
    unfold varOp0 varOp1 at hv ⊢
    simp only [checkVar_eq, Proc.ofOption, Proc.bind, hm, var_intake (by omega : nbits ≤ 31) hs, var_intake (by omega : nbits ≤ 31) h1] at hv ⊢
    refine snip_swap _ _ _ _ _ _ _ _ _ _ _ _ ?_ hlen (order_keyed (ho _) k1) hr hv
    rw [(ho _).length_eq]
    have := admit_length (varFits nbits) (fill key A1 f1) []
    simpa [fill] using this
  refine ⟨v, swap h0 (fun i j k _ _ => redMod_residue _) v1, swap h0' (fun i j k hi hk => ?_) v2⟩
  have := residue_onWord (σ i j k) (hraw i j k hi hk)
  rw [redMask, ← this]; rfl

/-- C64 for LINREG, server 1, with the masks as the code draws them. Missing: draws in which some used mask is unfair. -/
theorem C64_lin_server1_words_partial {d : ℕ} (hd : 1 ≤ d) (hsm : linMul d < 2 ^ 18) {nbits : ℕ} (hb : nbits ≤ 24) (hn : 0 < n) {c : Circuit}
    (hc : checkLinReg intModulus d = some c) {A0 A1 : List (Fin n ⊕ Bytes × LinRow)}
    (hA0 : Arrives key A0) (hA1 : Arrives key A1) (hlen : A1.length < 2 ^ 32) (x x' : Fin n → List U64) (y y' : Fin n → U64)
    (hx : ∀ i, (x i).length = d - 1) (hx' : ∀ i, (x' i).length = d - 1)
    {t : RootTables} {l : List ℕ} (hrc : RootCalls (npow2 (linMul d) :: l) t) {X : ℤ} {uses pos : ℕ} {st0 st1 : SnipState}
    (hs0 : SnipOk X uses pos st0) (hs1 : SnipOk X uses pos st1) (coef : ℕ → ℤ) (raw1 : ℕ → ℕ → ℕ → U64) (u : ℕ → ℕ → U64)
    (ord : Map LinRow → Map LinRow) (ho : IsOrder ord) (hby : ByKeys ord) :
    ∃ δ : Fin n → ℕ → U64, ∀ S : Fin n → ℕ → U64, ∃ τ : ℕ → ℕ → ℕ → (U64 ≃ U64), (∀ i j k w, Fair (τ i j k w) ↔ Fair w) ∧
    ∀ raw0 : ℕ → ℕ → ℕ → U64, (∀ i j k, i < A1.length → j < numFields d → k < nbits * (if d ≤ j then 2 else 1) → Fair (raw0 i j k)) →
    ∃ e : Fin n → (Draws c ≃ Draws c), (∀ i r, (e i r).1.f0 = r.1.f0 ∧ (e i r).1.g0 = r.1.g0) ∧
    ∀ r : Fin n → Draws c, ∃ f0 f0' f1 : Fin n → LinRow,
      (∀ i, clientLin d nbits (linMk d (x i) (y i) (S i)) t (r i).1 = some (f0 i, f1 i)) ∧
      (∀ i, clientLin d nbits (linMk d (x' i) (y' i) fun j => S i j ^^^ δ i j) t (e i (r i)).1 = some (f0' i, f1 i)) ∧
      ∀ s0 s0' s1, LinStream d A0.length s0 (fill key A0 f0) → LinStream d A0.length s0' (fill key A0 f0') →
        LinStream d A1.length s1 (fill key A1 f1) → ∃ v,
        Sees1 (linOp0 nbits A0.length s0 coef raw0 u st0) (linOp1 nbits A1.length s1 coef raw1 st1 ord) v ∧
        Sees1 (linOp0 nbits A0.length s0' coef (fun i j k => τ i j k (raw0 i j k)) u st0) (linOp1 nbits A1.length s1 coef raw1 st1 ord) v := by
  obtain ⟨c', e', hcok, hmul, hzero, hin, -⟩ := linCircuit hd hsm
  rw [hc] at e'; cases e'
  obtain ⟨δ, H⟩ := C64_lin_server1_partial hd hsm hb hn hc hA0 hA1 hlen x x' y y' hx hx' hrc hs0 hs1 coef raw1 u ord ho hby
  refine ⟨δ, fun S => ?_⟩
  obtain ⟨σ, H⟩ := H S
  refine ⟨fun i j k => wordEquiv (σ i j k), fun i j k w => onWord_fair _ w, fun raw0 hraw => ?_⟩
  obtain ⟨e, he, H⟩ := H fun i j k => residue (raw0 i j k)
  refine ⟨e, he, fun r => ?_⟩
  obtain ⟨f0, f0', f1, c1, c2, H⟩ := H r
  refine ⟨f0, f0', f1, c1, c2, fun s0 s0' s1 h0 h0' h1 => ?_⟩
  obtain ⟨v, v1, v2⟩ := H s0 s0' s1 h0 h0' h1
  obtain ⟨-, k1, -⟩ := h1.spec hmul
  obtain ⟨t1, rest1, d1, h1⟩ := h1
  have swap : ∀ {s : Bytes} {subs : List (Bytes × LinRow)}, LinStream d A0.length s subs → ∀ {raw raw' : ℕ → ℕ → ℕ → U64},
      (∀ i j k, i < A1.length → k < (linWidths d nbits).getD j 0 → redMod modW (raw i j k) = redMod modW (raw' i j k)) →
      Sees1 (linOp0 nbits A0.length s coef raw u st0) (linOp1 nbits A1.length s1 coef raw1 st1 ord) v →
      Sees1 (linOp0 nbits A0.length s coef raw' u st0) (linOp1 nbits A1.length s1 coef raw1 st1 ord) v := by
    intro s subs hs raw raw' hr hv
    obtain ⟨t0, rest0, d0, hs⟩ := hs
    unfold linOp0 linOp1 at hv ⊢
    simp only [d0, d1, Proc.ofOption, Proc.bind, lin_degree hsm, hc, hmul, lin_intake (by omega : nbits ≤ 31) hs,
      lin_intake (by omega : nbits ≤ 31) h1] at hv ⊢
    refine snip_swap _ _ _ _ _ _ _ _ _ _ _ _ ?_ hlen ?_ hr hv
    · rw [flatRows, List.length_map, (ho _).length_eq]
      have := admit_length (linFits nbits) (fill key A1 f1) []
      simpa [fill] using this
    · have hkf : ∀ m : Map LinRow, (flatRows m).keys = m.keys := fun m => by simp [flatRows, Map.keys, Function.comp_def]
      rw [hkf]
      exact order_keyed (ho _) k1
  refine ⟨v, swap h0 (fun i j k _ _ => redMod_residue _) v1, swap h0' (fun i j k hi hk => ?_) v2⟩
  have hj : j < numFields d ∧ k < nbits * (if d ≤ j then 2 else 1) := by
    unfold linWidths at hk
    by_cases hj : j < numFields d
    · rw [List.getD_eq_getElem?_getD, List.getElem?_map, List.getElem?_range hj] at hk
      exact ⟨hj, hk⟩
    · rw [List.getD_eq_default _ _ (by simpa using hj)] at hk
      omega
  have := residue_onWord (σ i j k) (hraw i j k hi hj.1 hj.2)
  rw [redMask, ← this]; rfl

/-! ### FREQ with jointly made daBits -/

/-- Draws of server 0 for the joint generation: a bit and a 64-bit word per daBit (correlated.cpp:352, 365). -/
abbrev WordRng : Type := ℕ → ℕ → Bool × U64

/-- As draws of the store; nothing else is used in this mode. -/
def WordRng.rng (d : WordRng) (g : StoreRng) : StoreRng := ⟨d, g.lz, g.tr⟩

/-- `flipMask` on words. -/
noncomputable def flipWord (δ b : Bool) : Bool × U64 ≃ Bool × U64 :=
  Function.Involutive.toPerm (fun d => if δ && b then (if d.1 then (false, wordEquiv (addMask 1#64 one_le_modulus) d.2) else
    (true, (wordEquiv (addMask 1#64 one_le_modulus)).symm d.2)) else (d.1 ^^ δ, d.2)) fun d => by
    obtain ⟨x, m⟩ := d
    cases δ <;> cases b <;> cases x <;> simp

theorem flipWord_fair (δ b : Bool) (d : Bool × U64) : Fair (flipWord δ b d).2 ↔ Fair d.2 := by
  obtain ⟨x, m⟩ := d
  cases δ <;> cases b <;> cases x <;> first | exact Iff.rfl | exact onWord_fair _ _

theorem flipWord_residue (δ b : Bool) {d : Bool × U64} (h : Fair d.2) :
    ((flipWord δ b d).1, residue (flipWord δ b d).2) = flipMask δ b (d.1, residue d.2) := by
  obtain ⟨x, m⟩ := d
  cases δ <;> cases b <;> cases x <;> first | rfl | exact congrArg _ (residue_onWord _ h)

theorem daPair_residue (d : Bool × U64) : daPair modW (d.1, (residue d.2).1) = daPair modW d := by
  have : (residue d.2).1 % modW = d.2 % modW := by
    have := redMod_residue d.2
    rwa [redMod, redMod, if_neg (by decide), if_neg (by decide)] at this
  simp only [daPair, this]

theorem flipWord_bit (δ b : Bool) (d : Bool × U64) : (flipWord δ b d).1 = (d.1 ^^ δ) := by
  obtain ⟨x, m⟩ := d
  cases δ <;> cases b <;> cases x <;> rfl

theorem flipWord_word (δ b : Bool) {d : Bool × U64} (h : Fair d.2) :
    (if b then (daPair (BitVec.ofNat 64 intModulus) (flipWord δ b d)).2 else (daPair (BitVec.ofNat 64 intModulus) (flipWord δ b d)).1) =
    if b then (daPair (BitVec.ofNat 64 intModulus) d).2 else (daPair (BitVec.ofNat 64 intModulus) d).1 := by
  have e : (BitVec.ofNat 64 intModulus : U64) = modW := rfl
  have h1 := flipMask_word δ b (d.1, residue d.2)
  rw [← flipWord_residue δ b h, e] at h1
  simp only at h1
  rw [daPair_residue (flipWord δ b d), daPair_residue d] at h1
  exact h1

/-- The change of all draws; `b` are the choices of server 1. -/
noncomputable def turnWords (δ : ℕ → Bool) (k : ℕ) (b : ℕ → Bool) : WordRng ≃ WordRng :=
  Equiv.piCongrRight fun _ => Equiv.piCongrRight fun i => flipWord (δ (k + i)) (b i)

/-- The queues after the change. -/
theorem stock_turnWords {c : StoreCfg} (hl : c.lazy = false) (d : WordRng) (g0 g1 : StoreRng) {s1 : Store} (s0 : {s0 // StoresOk intModulus s0 s1})
    (δ : ℕ → Bool) (n : ℕ) (hf : ∀ i < max n c.batch, Fair (d s0.1.calls i).2) {d' : WordRng}
    (hd : d' = turnWords δ s1.dabits.length (fun i => (g1.da s1.calls i).1) d) :
    (stock0 intModulus c (d'.rng g0) (turn0 s1 δ s0).1 n).map (·.b2) = ((stock0 intModulus c (d.rng g0) s0.1 n).map (·.b2)).mapIdx (fun i b => b ^^ δ i) ∧
    stockSeen intModulus c (d'.rng g0) g1 (turn0 s1 δ s0).1 s1 n = stockSeen intModulus c (d.rng g0) g1 s0.1 s1 n := by
  obtain ⟨s0, h⟩ := s0
  obtain ⟨h1, -, h3⟩ := turnDa_ok (forall2_symm h.da) δ
  have ht : (turn0 s1 δ ⟨s0, h⟩).1 = ⟨turnDa intModulus δ s1.dabits s0.dabits, s0.triples, s0.calls⟩ := rfl
  have hlen : (turnDa intModulus δ s1.dabits s0.dabits).length = s0.dabits.length := by rw [← h1.length_eq, h.len]
  have hd' : ∀ c i, d' c i = flipWord (δ (s1.dabits.length + i)) (g1.da s1.calls i).1 (d c i) := fun c i => by rw [hd]; rfl
  have hw : ∀ num ≤ max n c.batch, daWords intModulus (d'.rng g0) g1 s0.calls s1.calls num = daWords intModulus (d.rng g0) g1 s0.calls s1.calls num := by
    intro num hn
    unfold daWords firstN
    have hmem : ∀ i ∈ List.range num, Fair (d s0.calls i).2 := fun i hi => hf i (lt_of_lt_of_le (List.mem_range.1 hi) hn)
    generalize List.range num = l at hmem
    rw [List.map_map, List.map_map, List.map_map]
    induction l with
    | nil => rfl
    | cons i l ih =>
      simp only [List.map_cons, otChoose_cons]
      rw [ih fun i hi => hmem i (List.mem_cons_of_mem _ hi)]
      refine congrArg (· :: _) ?_
      simp only [Function.comp_apply, WordRng.rng, hd']
      exact flipWord_word _ _ (hmem i (List.mem_cons_self ..))
  rw [ht]
  refine ⟨?_, ?_⟩
  · unfold stock0 daMade0
    simp only [hlen, hl, Bool.false_eq_true, if_false]
    split
    · rw [List.map_append, List.map_append, h3, mapIdx_append_bits, List.length_map]
      congr 1
      apply List.ext_getElem
      · simp only [List.length_map, firstN, List.length_range, List.length_mapIdx]
      · intro i h1 h2
        simp only [firstN, List.getElem_map, List.getElem_range, List.getElem_mapIdx, WordRng.rng]
        rw [hd', flipWord_bit, h.len]
    · exact h3
  · unfold stockSeen daSeen
    simp only [hl, Bool.false_eq_true, if_false]
    split
    · rw [hw _ (max_le_max (Nat.sub_le _ _) le_rfl)]
    · rfl

/-- C65 for server 1 with jointly made daBits and the masks as the code draws them. Missing: draws in which some mask of this batch is unfair. -/
theorem C65_freq_server1_words_partial {c : StoreCfg} (hl : c.lazy = false) {g : StoreRng} (hg : GoodRng intModulus g) (g1 : StoreRng) {nbits : ℕ}
    (hb : nbits ≤ 30) {A0 A1 : List (Fin n ⊕ Bytes × List Bool)} (hA0 : Arrives key A0) (hA1 : Arrives key A1) (ht : A0.length < 2 ^ 32)
    (hcap : (keysOf (fill key A1 fun _ => [])).card ≤ A0.length) (hsz : (keysOf (fill key A1 fun _ => [])).card * 2 ^ nbits < 2 ^ 32)
    (raw raw' : Fin n → U64) (st1 : Store) {ord : Map (List Bool) → Map (List Bool)} (ho : IsOrder ord) :
    ∃ E : Fin n → (Arr nbits ≃ Arr nbits), ∀ arr : Fin n → Arr nbits,
      (∀ i, (clientFreq nbits (raw' i) (E i (arr i)).1).2 = (clientFreq nbits (raw i) (arr i).1).2) ∧
      ∃ (e : WordRng ≃ WordRng) (τ : {st0 // StoresOk intModulus st0 st1} ≃ {st0 // StoresOk intModulus st0 st1}),
        (∀ d k i, Fair (e d k i).2 ↔ Fair (d k i).2) ∧ ∀ d st0 s0 s0' s1,
        (∀ i < max (A0.length * 2 ^ nbits) c.batch, Fair (d st0.1.calls i).2) →
        FreqStream (2 ^ nbits) A0.length s0 (fill key A0 fun i => (clientFreq nbits (raw i) (arr i).1).1) →
        FreqStream (2 ^ nbits) A0.length s0' (fill key A0 fun i => (clientFreq nbits (raw' i) (E i (arr i)).1).1) →
        FreqStream (2 ^ nbits) A1.length s1 (fill key A1 fun i => (clientFreq nbits (raw i) (arr i).1).2) → ∃ v,
          Gets1 (freqOp0 c (d.rng g) nbits A0.length s0 st0.1) (freqOp1 c g1 nbits A1.length s1 ord st1) v ∧
          Gets1 (freqOp0 c ((e d).rng g) nbits A0.length s0' (τ st0).1) (freqOp1 c g1 nbits A1.length s1 ord st1) v := by
  refine ⟨fun i => moveArr hb (raw i) (raw' i), fun arr => ⟨fun i => moveArr_share1 hb _ _ _, ?_⟩⟩
  set δ := rowDiff (2 ^ nbits) (runKeys ord (fill key A1 fun i => (clientFreq nbits (raw i) (arr i).1).2))
    (fill key A0 fun i => (clientFreq nbits (raw i) (arr i).1).1)
    (fill key A0 fun i => (clientFreq nbits (raw' i) (moveArr hb (raw i) (raw' i) (arr i)).1).1) with hδ
  refine ⟨turnWords δ st1.dabits.length fun i => (g1.da st1.calls i).1, turn0 st1 δ, fun d k i => flipWord_fair _ _ _,
    fun d st0 s0 s0' s1 hf h0 h0' h1 => ?_⟩
  have hT := fun N (hN : N ≤ A0.length * 2 ^ nbits) => stock_turnWords hl d g g1 st0 δ N (fun i hi => hf i (lt_of_lt_of_le hi (max_le_max hN le_rfl))) rfl
  exact freq_hide1 c g1 (g0 := d.rng g) (g0' := WordRng.rng (turnWords δ st1.dabits.length (fun i => (g1.da st1.calls i).1) d) g) hg hg hb hA0 hA1 ht hcap
    hsz raw raw' arr st0.2 (turn0 st1 δ st0).2 ho rfl rfl rfl (fun N hN => (hT N hN).1) (fun N hN => (hT N hN).2) h0 h0' h1

/-- Non-vacuity of the new hypothesis: the largest residue and a word from the last whole block are fair, the largest word is not. (The other
hypotheses are those of `C64_var_server1_partial`, `C64_lin_server1_partial` and `C65_freq_server1_joint_partial`, with examples there.) -/
example : Fair 140737597931520#64 ∧ Fair 18446617698482388990#64 ∧ ¬ Fair (BitVec.allOnes 64) := by decide

end Verif

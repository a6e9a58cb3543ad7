import Verif.LemmasViewHide
import Mathlib.Data.Fin.VecNotation

/-! # C64: what each server learns in VAR and STDDEV -/

namespace Verif

variable {n : ℕ} {key : Fin n → Bytes}

/-- The shares that `clientVar` makes for server 0. -/
def varVals0 (nbits : ℕ) (s s2 : U64) : List U64 := [s % (1#64 <<< nbits), s2 % ((1#64 <<< nbits) * (1#64 <<< nbits))]

/-- The shares that `clientVar` makes for server 1. -/
def varVals1 (nbits : ℕ) (a s s2 : U64) : List U64 :=
  [s % (1#64 <<< nbits) ^^^ a % (1#64 <<< nbits),
    s2 % ((1#64 <<< nbits) * (1#64 <<< nbits)) ^^^ (a % (1#64 <<< nbits)) * (a % (1#64 <<< nbits))]

/-- The value and its square. -/
def varIn (nbits : ℕ) (a : U64) : List ℤ := [((a.toNat % 2 ^ nbits : ℕ) : ℤ), (((a.toNat % 2 ^ nbits) ^ 2 : ℕ) : ℤ)]

theorem varIn_at (nbits : ℕ) (a : U64) : ((at0 (varIn nbits a) 0 : ℤ) : ZMod intModulus) = ((a.toNat % 2 ^ nbits : ℕ) : ZMod intModulus) ∧
    ((at0 (varIn nbits a) 1 : ℤ) : ZMod intModulus) = (((a.toNat % 2 ^ nbits) ^ 2 : ℕ) : ZMod intModulus) := by
  unfold varIn
  generalize a.toNat % 2 ^ nbits = q
  simp [at0]

theorem zeroDraws (c : Circuit) : ValidRand intModulus c
    ⟨0, 0, List.replicate (npow2 c.mulGates.length) 0, 0, 0, 0, List.replicate c.mulGates.length 0, 0, 0, 0, 0, 0⟩ := by
  have z : IsDraw 0 intModulus := by simp only [IsDraw]; decide
  refine ⟨by simp, by simp, ?_, ?_, ⟨z, z, z⟩, z, z, z, z, z⟩
  · intro y hy; rw [List.eq_of_mem_replicate hy]; exact z
  · intro y hy; rw [List.eq_of_mem_replicate hy]; exact z

/-- The wires of a client's circuit. -/
theorem clientVar_wires {nbits : ℕ} (hb : nbits ≤ 31) (a : U64) : ∃ w, varCircuit.eval intModulus (varIn nbits a) = some (w, true) ∧
    ∀ s s2 t r, clientVar nbits a s s2 t r = (sharePolynomials intModulus varCircuit w t r).map fun pk =>
      (a % (1#64 <<< nbits), ⟨varVals0 nbits s s2, pk.1⟩, ⟨varVals1 nbits a s s2, pk.2⟩) := by
  obtain ⟨t, ht⟩ := C30_sizes (c := varCircuit) (by decide) [] _ .start
  obtain ⟨real, r0, r1, w, h, -, -, -, -, -, -, -, hev, -⟩ := clientVar_spec hb ht ⟨[], a, 0, 0, _⟩ (zeroDraws varCircuit)
  refine ⟨w, hev, fun s s2 t r => ?_⟩
  have h31 : (2 : ℕ) ^ nbits ≤ 2 ^ 31 := Nat.pow_le_pow_right (by norm_num) hb
  have hr : (a % (1#64 <<< nbits)).toNat = a.toNat % 2 ^ nbits := mod_shl (by omega) a
  have hl : a.toNat % 2 ^ nbits < 2 ^ 31 := lt_of_lt_of_le (Nat.mod_lt _ (pow_pos (by norm_num) _)) h31
  have hl2 : (a.toNat % 2 ^ nbits) ^ 2 < (2 ^ 31) ^ 2 := Nat.pow_lt_pow_left hl (by norm_num)
  have hsq : ((a % (1#64 <<< nbits)) * (a % (1#64 <<< nbits))).toNat = (a.toNat % 2 ^ nbits) ^ 2 := by
    rw [BitVec.toNat_mul, hr, ← pow_two, Nat.mod_eq_of_lt (by omega)]
  have t1 : (a % (1#64 <<< nbits)).toInt = ((a.toNat % 2 ^ nbits : ℕ) : ℤ) := by
    rw [BitVec.toInt_eq_toNat_of_lt (by rw [hr]; omega), hr]
  have t2 : ((a % (1#64 <<< nbits)) * (a % (1#64 <<< nbits))).toInt = (((a.toNat % 2 ^ nbits) ^ 2 : ℕ) : ℤ) := by
    rw [BitVec.toInt_eq_toNat_of_lt (by rw [hsq]; omega), hsq]
  have hev : varCircuit.eval intModulus [((a.toNat % 2 ^ nbits : ℕ) : ℤ), (((a.toNat % 2 ^ nbits) ^ 2 : ℕ) : ℤ)] = some (w, true) := hev
  simp only [clientVar, checkVar_eq, Option.bind_some, t1, t2, hev]
  rfl

theorem var_honest {nbits : ℕ} (hb : nbits ≤ 31) (a s s2 : Fin n → U64) {w : Fin n → List ℤ}
    (hw : ∀ i, varCircuit.eval intModulus (varIn nbits (a i)) = some (w i, true) ∧
      ∀ s s2 t r, clientVar nbits (a i) s s2 t r = (sharePolynomials intModulus varCircuit (w i) t r).map fun pk =>
      (a i % (1#64 <<< nbits), ⟨varVals0 nbits s s2, pk.1⟩, ⟨varVals1 nbits (a i) s s2, pk.2⟩)) :
    HonestVals varCircuit (varWidths nbits) (varFits nbits) (fun i => varVals0 nbits (s i) (s2 i))
      (fun i => varVals1 nbits (a i) (s i) (s2 i)) (fun i => varIn nbits (a i)) w := by
  obtain ⟨t, ht⟩ := C30_sizes (c := varCircuit) (by decide) [] _ .start
  have hs : ∀ i, varFits nbits ⟨varVals0 nbits (s i) (s2 i), zeroPacket varCircuit.mulGates.length⟩ = true ∧
      varFits nbits ⟨varVals1 nbits (a i) (s i) (s2 i), zeroPacket varCircuit.mulGates.length⟩ = true ∧
      ((varVals0 nbits (s i) (s2 i)).getD 0 0#64 ^^^ (varVals1 nbits (a i) (s i) (s2 i)).getD 0 0#64).toNat = (a i).toNat % 2 ^ nbits ∧
      ((varVals0 nbits (s i) (s2 i)).getD 1 0#64 ^^^ (varVals1 nbits (a i) (s i) (s2 i)).getD 1 0#64).toNat = ((a i).toNat % 2 ^ nbits) ^ 2 := by
    intro i
    obtain ⟨real, r0, r1, w', h, -, f0, f1, -, -, x0, x1, -⟩ := clientVar_spec hb ht ⟨[], a i, s i, s2 i, _⟩ (zeroDraws varCircuit)
    rw [VarClient.out, (hw i).2, Option.map_eq_some_iff] at h
    obtain ⟨pk, -, h⟩ := h
    cases h
    exact ⟨f0, f1, x0, x1⟩
  have hlt : ∀ i, (a i).toNat % 2 ^ nbits < 2 ^ nbits := fun i => Nat.mod_lt _ (pow_pos (by norm_num) _)
  refine ⟨fun i => (hs i).1, fun i => (hs i).2.1, fun _ => rfl, fun _ => rfl, fun _ => rfl, fun i j hj => ?_, fun i => (hw i).1⟩
  have hj : j < 2 := hj
  interval_cases j
  · rw [(hs i).2.2.1, Nat.mod_eq_of_lt (by simpa [varWidths] using hlt i), (varIn_at nbits (a i)).1]
  · have h2 : ((a i).toNat % 2 ^ nbits) ^ 2 < 2 ^ (nbits * 2) := by rw [pow_mul]; exact Nat.pow_lt_pow_left (hlt i) (by norm_num)
    rw [(hs i).2.2.2, Nat.mod_eq_of_lt (by simpa [varWidths] using h2), (varIn_at nbits (a i)).2]

/-- The rows that the clients send. -/
theorem var_rows {nbits : ℕ} (a s s2 : Fin n → U64) {w : Fin n → List ℤ}
    (hw : ∀ i, varCircuit.eval intModulus (varIn nbits (a i)) = some (w i, true) ∧
      ∀ s s2 t r, clientVar nbits (a i) s s2 t r = (sharePolynomials intModulus varCircuit (w i) t r).map fun pk =>
      (a i % (1#64 <<< nbits), ⟨varVals0 nbits s s2, pk.1⟩, ⟨varVals1 nbits (a i) s s2, pk.2⟩)) {t : RootTables} {l : List ℕ}
    (hrc : RootCalls (2 :: l) t) (r : Fin n → Draws varCircuit) :
    (∃ f0 f1, HonestRows varCircuit t (fun i => varVals0 nbits (s i) (s2 i)) (fun i => varVals1 nbits (a i) (s i) (s2 i)) w r f0 f1) ∧
    ∀ f0 f1, HonestRows varCircuit t (fun i => varVals0 nbits (s i) (s2 i)) (fun i => varVals1 nbits (a i) (s i) (s2 i)) w r f0 f1 →
      ∀ i, clientVar nbits (a i) (s i) (s2 i) t (r i).1 = some (a i % (1#64 <<< nbits), f0 i, f1 i) := by
  have ht := (C02_tables_after_any_history _ _ hrc).1 _ _ rfl
  constructor
  · have : ∀ i, ∃ pk, sharePolynomials intModulus varCircuit (w i) t (r i).1 = some pk := by
      intro i
      have hev := (hw i).1
      rw [Circuit.eval, Option.bind_eq_some_iff] at hev
      obtain ⟨w', hev, hz⟩ := hev
      rw [Option.map_eq_some_iff] at hz
      obtain ⟨zs, -, hz2⟩ := hz
      obtain rfl : w' = w i := congrArg Prod.fst hz2
      obtain ⟨hvl, -, hform, -⟩ := client_form intModulus_two_ne varCircuit_ok.wf (evalGates_all hev).1 ht (r i).1.f0 (r i).1.g0
      exact ⟨_, hform (r i).1 rfl rfl⟩
    choose pk hpk using this
    exact ⟨fun i => ⟨_, (pk i).1⟩, fun i => ⟨_, (pk i).2⟩, fun _ => rfl, fun _ => rfl, hpk⟩
  · intro f0 f1 h i
    rw [(hw i).2, h.pks i, Option.map_some, ← h.vals0 i, ← h.vals1 i]

theorem varWidths_le {nbits : ℕ} (hb : nbits ≤ 24) : ∀ w ∈ varWidths nbits, w ≤ 48 := by
  intro w hw
  simp only [varWidths, List.mem_cons, List.not_mem_nil, or_false] at hw
  omega

/-- The sums that server 1 sends. -/
theorem var_tail {b : List ℤ} (hl : b.length = 2) (hc : ∀ y ∈ b, Canon y intModulus) (fma std : Bool) (total : ℕ) (a : List ℤ × ℕ × SnipState)
    (z1 : SnipState) : ∃ r, PairW (rdFmpz.toProc.bind fun b => rdFmpz.toProc.bind fun b2 =>
        .ret (finish a.2.1 total (varAnswer fma std (fmod (b + a.1.getD 0 0) intModulus) (fmod (b2 + a.1.getD 1 0) intModulus) a.2.1), a.2.2))
      ((Proc.putOpt (encFmpz (b.getD 0 0))).bind fun _ => (Proc.putOpt (encFmpz (b.getD 1 0))).bind fun _ =>
        Proc.ret ((Ret.noAns : Ret (Option ℝ)), z1)) r (Ret.noAns, z1)
      (seenBytes ((encFmpz (b.getD 0 0)).getD []) ++ seenBytes ((encFmpz (b.getD 1 0)).getD [])) [] := by
  have hb0 : Canon (b.getD 0 0) intModulus := by
    rw [List.getD_eq_getElem?_getD, List.getElem?_eq_getElem (by omega)]
    exact hc _ (List.getElem_mem _)
  have hb1 : Canon (b.getD 1 0) intModulus := by
    rw [List.getD_eq_getElem?_getD, List.getElem?_eq_getElem (by omega)]
    exact hc _ (List.getElem_mem _)
  rw [encFmpz_of_fits (fits_canon hb0), encFmpz_of_fits (fits_canon hb1)]
  refine ⟨(finish a.2.1 total (varAnswer fma std (fmod (b.getD 0 0 + a.1.getD 0 0) intModulus) (fmod (b.getD 1 0 + a.1.getD 1 0) intModulus) a.2.1),
    a.2.2), ?_⟩
  have e1 := PairW.bind (Q0 := fun b2 : ℤ => Proc.ret (finish a.2.1 total (varAnswer fma std (fmod (b.getD 0 0 + a.1.getD 0 0) intModulus)
    (fmod (b2 + a.1.getD 1 0) intModulus) a.2.1), a.2.2)) (Q1 := fun _ : Unit => Proc.ret ((Ret.noAns : Ret (Option ℝ)), z1))
    (PairW.send10 (reads_fmpz (fits_canon hb1))) (PairW.ret _ _)
  exact ((PairW.send10 (reads_fmpz (fits_canon hb0))).bind (Q0 := fun b1 : ℤ => rdFmpz.toProc.bind fun b2 =>
    .ret (finish a.2.1 total (varAnswer fma std (fmod (b1 + a.1.getD 0 0) intModulus) (fmod (b2 + a.1.getD 1 0) intModulus) a.2.1), a.2.2))
    e1).cast rfl rfl (by rw [List.append_nil]; rfl) rfl

/-- C64 for VAR and STDDEV, server 0. Honest clients, any others, any arrival order. If the honest clients' values are replaced by others with
the same sum and the same sum of squares, then for each honest client there is a bijection of the random draws of its packet under which
server 0 gets the same submissions and sees the same messages of server 1. -/
theorem C64_var_server0 (fma std : Bool) {nbits : ℕ} (hb : nbits ≤ 24) (hn : 0 < n) {A0 A1 : List (Fin n ⊕ Bytes × SnipRow)}
    (hA0 : Arrives key A0) (hA1 : Arrives key A1) (hlen : A1.length < 2 ^ 32) (rawReal rawReal' rawShare rawShare2 : Fin n → U64)
    (hsum : ∑ i, (rawReal i).toNat % 2 ^ nbits ≡ ∑ i, (rawReal' i).toNat % 2 ^ nbits [MOD intModulus])
    (hsq : ∑ i, ((rawReal i).toNat % 2 ^ nbits) ^ 2 ≡ ∑ i, ((rawReal' i).toNat % 2 ^ nbits) ^ 2 [MOD intModulus])
    {t : RootTables} {l : List ℕ} (hrc : RootCalls (2 :: l) t) {x : ℤ} {uses pos : ℕ} {st0 st1 : SnipState} (hs0 : SnipOk x uses pos st0)
    (hs1 : SnipOk x uses pos st1) (coef : ℕ → ℤ) (raw0 raw1 : ℕ → ℕ → ℕ → U64) (ord : Map SnipRow → Map SnipRow) (ho : IsOrder ord)
    (hby : ByKeys ord) :
    ∃ e : Fin n → (Draws varCircuit ≃ Draws varCircuit), (∀ i r, (e i r).1.f0 = r.1.f0 ∧ (e i r).1.g0 = r.1.g0) ∧
    ∀ r : Fin n → Draws varCircuit, ∃ f0 f1 f1' : Fin n → SnipRow,
      (∀ i, clientVar nbits (rawReal i) (rawShare i) (rawShare2 i) t (r i).1 = some (rawReal i % (1#64 <<< nbits), f0 i, f1 i)) ∧
      (∀ i, clientVar nbits (rawReal' i) (rawShare i) (rawShare2 i) t (e i (r i)).1 = some (rawReal' i % (1#64 <<< nbits), f0 i, f1' i)) ∧
      ∀ s0 s1 s1', VarStream A0.length s0 (fill key A0 f0) → VarStream A1.length s1 (fill key A1 f1) →
        VarStream A1.length s1' (fill key A1 f1') → ∃ v,
        Sees0 (varOp0 fma std nbits A0.length s0 coef raw0 st0) (varOp1 nbits A1.length s1 coef raw1 st1 ord) v ∧
        Sees0 (varOp0 fma std nbits A0.length s0 coef raw0 st0) (varOp1 nbits A1.length s1' coef raw1 st1 ord) v := by
  choose w hw using fun i => clientVar_wires (by omega : nbits ≤ 31) (rawReal i)
  choose w' hw' using fun i => clientVar_wires (by omega : nbits ≤ 31) (rawReal' i)
  have hv := var_honest (by omega : nbits ≤ 31) rawReal rawShare rawShare2 hw
  have hv' := var_honest (by omega : nbits ≤ 31) rawReal' rawShare rawShare2 hw'
  have hok : ∀ r r' : SnipRow, r.vals = r'.vals → varFits nbits r = varFits nbits r' := fun r r' h => by rw [varFits, varFits, h]
  obtain ⟨e, he, H⟩ := snip_hide0 varCircuit_ok hs0 hs1 coef (ws := varWidths nbits) (le_refl 2) (varWidths_le hb) raw0 raw1
    (fun _ => [0#64, 0#64]) (fun _ => rfl) (varFits nbits) hok hn hA0 hA1 hlen hv hv' (by
      intro j hj
      have hj : j < 2 := hj
      have h1 := (ZMod.natCast_eq_natCast_iff _ _ _).2 hsum
      have h2 := (ZMod.natCast_eq_natCast_iff _ _ _).2 hsq
      rw [Nat.cast_sum, Nat.cast_sum] at h1 h2
      interval_cases j
      · simpa only [varIn_at] using h1
      · simpa only [varIn_at] using h2) (t := t) (l := l) hrc
    (ord (admit (varFits nbits) (fill key A1 fun i => ⟨varVals1 nbits (rawReal i) (rawShare i) (rawShare2 i), zeroPacket 1⟩) [])).keys
  refine ⟨e, he, fun r => ?_⟩
  obtain ⟨⟨f0, f1, hf⟩, hc⟩ := var_rows rawReal rawShare rawShare2 hw hrc r
  obtain ⟨f1', hf', H⟩ := H r f0 f1 hf
  refine ⟨f0, f1, f1', hc f0 f1 hf, (var_rows rawReal' rawShare rawShare2 hw' hrc _).2 f0 f1' hf', fun s0 s1 s1' h0 h1 h1' => ?_⟩
  obtain ⟨-, -, r0⟩ := h0.spec
  obtain ⟨-, k1, r1⟩ := h1.spec
  obtain ⟨-, k1', r1'⟩ := h1'.spec
  have keys : ∀ (f : Fin n → SnipRow), (∀ q, varFits nbits (f q) = true) → (ord (admit (varFits nbits) (fill key A1 f) [])).keys =
      (ord (admit (varFits nbits) (fill key A1 fun i => ⟨varVals1 nbits (rawReal i) (rawShare i) (rawShare2 i), zeroPacket 1⟩) [])).keys :=
    fun f hf => hby _ _ (admit_keys_fill A1 (fun q => by rw [hf q]; exact (hv.ok1 q).symm) [] [] rfl)
  obtain ⟨a, num, b, z, z1, z', z1', v, u, u', p, p', hbl, hbc⟩ := H k1 k1' r0 r1 r1' _ _ (ho _) (ho _)
    (keys f1 fun q => by rw [hok _ ⟨_, zeroPacket 1⟩ (hf.vals1 q)]; exact hv.ok1 q)
    (keys f1' fun q => by rw [hok _ ⟨_, zeroPacket 1⟩ (hf'.vals1 q)]; exact hv'.ok1 q)
  have hm : varCircuit.mulGates.length = 1 := rfl
  unfold varOp0 varOp1
  simp only [checkVar_eq, Proc.ofOption, Proc.bind, hm, var_intake (by omega : nbits ≤ 31) h0, var_intake (by omega : nbits ≤ 31) h1,
    var_intake (by omega : nbits ≤ 31) h1']
  obtain ⟨q, hq⟩ := var_tail hbl hbc fma std A0.length (a, num, z) z1
  obtain ⟨q', hq'⟩ := var_tail hbl hbc fma std A0.length (a, num, z') z1'
  exact ⟨_, (p.bind hq).sees0, (p'.bind hq').sees0⟩

theorem xor_mod_shl {k : ℕ} (hk : k < 64) (a d : U64) (hd : d.toNat < 2 ^ k) : (a ^^^ d) % (1#64 <<< k) = a % (1#64 <<< k) ^^^ d := by
  apply BitVec.eq_of_toNat_eq
  rw [BitVec.toNat_umod, shl_toNat hk, BitVec.toNat_xor, BitVec.toNat_xor, BitVec.toNat_umod, shl_toNat hk, Nat.xor_mod_two_pow,
    Nat.mod_eq_of_lt hd]

/-- C64 for VAR and STDDEV, server 1. If the honest clients' values are replaced by any others, there are bijections of their random draws
(an XOR with a fixed word for the shares) and of the masks of server 0 under which server 1 gets the same submissions and sees the same
messages. Missing: the theorem takes the masks to be uniform residues. The code reduces a uniform 64-bit word, which is slightly biased, and for
such words the statement is false (`C64_mask_bias`). -/
theorem C64_var_server1_partial (fma std : Bool) {nbits : ℕ} (hb : nbits ≤ 24) (hn : 0 < n) {A0 A1 : List (Fin n ⊕ Bytes × SnipRow)}
    (hA0 : Arrives key A0) (hA1 : Arrives key A1) (hlen : A1.length < 2 ^ 32) (rawReal rawReal' : Fin n → U64)
    {t : RootTables} {l : List ℕ} (hrc : RootCalls (2 :: l) t) {x : ℤ} {uses pos : ℕ} {st0 st1 : SnipState} (hs0 : SnipOk x uses pos st0)
    (hs1 : SnipOk x uses pos st1) (coef : ℕ → ℤ) (raw1 : ℕ → ℕ → ℕ → U64) (ord : Map SnipRow → Map SnipRow) (ho : IsOrder ord)
    (hby : ByKeys ord) :
    ∃ d d2 : Fin n → U64, ∀ rawShare rawShare2 : Fin n → U64, ∃ σ : ℕ → ℕ → ℕ → (Mask ≃ Mask), ∀ raw0 : ℕ → ℕ → ℕ → Mask,
    ∃ e : Fin n → (Draws varCircuit ≃ Draws varCircuit), (∀ i r, (e i r).1.f0 = r.1.f0 ∧ (e i r).1.g0 = r.1.g0) ∧
    ∀ r : Fin n → Draws varCircuit, ∃ f0 f0' f1 : Fin n → SnipRow,
      (∀ i, clientVar nbits (rawReal i) (rawShare i) (rawShare2 i) t (r i).1 = some (rawReal i % (1#64 <<< nbits), f0 i, f1 i)) ∧
      (∀ i, clientVar nbits (rawReal' i) (rawShare i ^^^ d i) (rawShare2 i ^^^ d2 i) t (e i (r i)).1 =
        some (rawReal' i % (1#64 <<< nbits), f0' i, f1 i)) ∧
      ∀ s0 s0' s1, VarStream A0.length s0 (fill key A0 f0) → VarStream A0.length s0' (fill key A0 f0') →
        VarStream A1.length s1 (fill key A1 f1) → ∃ v,
        Sees1 (varOp0 fma std nbits A0.length s0 coef (fun i j k => (raw0 i j k).1) st0) (varOp1 nbits A1.length s1 coef raw1 st1 ord) v ∧
        Sees1 (varOp0 fma std nbits A0.length s0' coef (fun i j k => (σ i j k (raw0 i j k)).1) st0) (varOp1 nbits A1.length s1 coef raw1 st1 ord) v := by
  choose w hw using fun i => clientVar_wires (by omega : nbits ≤ 31) (rawReal i)
  choose w' hw' using fun i => clientVar_wires (by omega : nbits ≤ 31) (rawReal' i)
  refine ⟨fun i => rawReal i % (1#64 <<< nbits) ^^^ rawReal' i % (1#64 <<< nbits),
    fun i => (rawReal i % (1#64 <<< nbits)) * (rawReal i % (1#64 <<< nbits)) ^^^ (rawReal' i % (1#64 <<< nbits)) * (rawReal' i % (1#64 <<< nbits)),
    fun rawShare rawShare2 => ?_⟩
  have hv := var_honest (by omega : nbits ≤ 31) rawReal rawShare rawShare2 hw
  have hv' := var_honest (by omega : nbits ≤ 31) rawReal' (fun i => rawShare i ^^^ (rawReal i % (1#64 <<< nbits) ^^^ rawReal' i % (1#64 <<< nbits)))
    (fun i => rawShare2 i ^^^ ((rawReal i % (1#64 <<< nbits)) * (rawReal i % (1#64 <<< nbits)) ^^^
      (rawReal' i % (1#64 <<< nbits)) * (rawReal' i % (1#64 <<< nbits)))) hw'
  -- server 1's shares are the same
  have hmm : (1#64 <<< nbits : U64) * (1#64 <<< nbits) = 1#64 <<< (2 * nbits) := by
    apply BitVec.eq_of_toNat_eq
    rw [BitVec.toNat_mul, shl_toNat (by omega), shl_toNat (by omega), ← pow_add, ← two_mul, Nat.mod_eq_of_lt]
    exact Nat.pow_lt_pow_right (by omega) (by omega)
  have lt1 : ∀ a : U64, (a % (1#64 <<< nbits)).toNat < 2 ^ nbits := fun a => by
    rw [mod_shl (by omega)]; exact Nat.mod_lt _ (pow_pos (by norm_num) _)
  have lt2 : ∀ a : U64, ((a % (1#64 <<< nbits)) * (a % (1#64 <<< nbits))).toNat < 2 ^ (2 * nbits) := fun a => by
    rw [BitVec.toNat_mul]
    refine lt_of_le_of_lt (Nat.mod_le _ _ : _ ≤ (a % (1#64 <<< nbits)).toNat * (a % (1#64 <<< nbits)).toNat) ?_
    rw [two_mul, pow_add]
    exact Nat.mul_lt_mul'' (lt1 a) (lt1 a)
  have same : ∀ i, varVals1 nbits (rawReal' i) (rawShare i ^^^ (rawReal i % (1#64 <<< nbits) ^^^ rawReal' i % (1#64 <<< nbits)))
      (rawShare2 i ^^^ ((rawReal i % (1#64 <<< nbits)) * (rawReal i % (1#64 <<< nbits)) ^^^
        (rawReal' i % (1#64 <<< nbits)) * (rawReal' i % (1#64 <<< nbits)))) = varVals1 nbits (rawReal i) (rawShare i) (rawShare2 i) := by
    intro i
    have cancel : ∀ a b c : U64, a ^^^ (b ^^^ c) ^^^ c = a ^^^ b := fun a b c => by
      rw [BitVec.xor_assoc, BitVec.xor_assoc, BitVec.xor_self, BitVec.xor_zero]
    unfold varVals1
    rw [hmm, xor_mod_shl (by omega) _ _ (by rw [BitVec.toNat_xor]; exact Nat.xor_lt_two_pow (lt1 _) (lt1 _)),
      xor_mod_shl (by omega) _ _ (by rw [BitVec.toNat_xor]; exact Nat.xor_lt_two_pow (lt2 _) (lt2 _)), cancel, cancel]
  simp only [same] at hv'
  have hok : ∀ r r' : SnipRow, r.vals = r'.vals → varFits nbits r = varFits nbits r' := fun r r' h => by rw [varFits, varFits, h]
  obtain ⟨σ, H⟩ := snip_hide1 varCircuit_ok hs0 hs1 coef (ws := varWidths nbits) (le_refl 2) (varWidths_le hb) raw1
    (fun _ => [0#64, 0#64]) (fun _ => rfl) (varFits nbits) hok hn hA0 hA1 hlen hv hv' (t := t) (l := l) hrc
    (ord (admit (varFits nbits) (fill key A1 fun i => ⟨varVals1 nbits (rawReal i) (rawShare i) (rawShare2 i), zeroPacket 1⟩) [])).keys
  refine ⟨σ, fun raw0 => ?_⟩
  obtain ⟨e, he, H⟩ := H raw0
  refine ⟨e, he, fun r => ?_⟩
  obtain ⟨⟨f0, f1, hf⟩, hc⟩ := var_rows rawReal rawShare rawShare2 hw hrc r
  obtain ⟨f0', hf', H⟩ := H r f0 f1 hf
  refine ⟨f0, f0', f1, hc f0 f1 hf, (var_rows rawReal' _ _ hw' hrc _).2 f0' f1 (by simp only [same]; exact hf'), fun s0 s0' s1 h0 h0' h1 => ?_⟩
  obtain ⟨-, -, r0⟩ := h0.spec
  obtain ⟨-, -, r0'⟩ := h0'.spec
  obtain ⟨-, k1, r1⟩ := h1.spec
  have keys : ∀ (f : Fin n → SnipRow), (∀ q, varFits nbits (f q) = true) → (ord (admit (varFits nbits) (fill key A1 f) [])).keys =
      (ord (admit (varFits nbits) (fill key A1 fun i => ⟨varVals1 nbits (rawReal i) (rawShare i) (rawShare2 i), zeroPacket 1⟩) [])).keys :=
    fun f hf => hby _ _ (admit_keys_fill A1 (fun q => by rw [hf q]; exact (hv.ok1 q).symm) [] [] rfl)
  obtain ⟨a, a', b, z, z1, z', z1', v, v', u, p, p', hbl, hbc⟩ := H k1 r0 r0' r1 _ (ho _)
    (keys f1 fun q => by rw [hok _ ⟨_, zeroPacket 1⟩ (hf.vals1 q)]; exact hv.ok1 q)
  have hm : varCircuit.mulGates.length = 1 := rfl
  unfold varOp0 varOp1
  simp only [checkVar_eq, Proc.ofOption, Proc.bind, hm, var_intake (by omega : nbits ≤ 31) h0, var_intake (by omega : nbits ≤ 31) h0',
    var_intake (by omega : nbits ≤ 31) h1]
  obtain ⟨q, hq⟩ := var_tail hbl hbc fma std A0.length (a, z) z1
  obtain ⟨q', hq'⟩ := var_tail hbl hbc fma std A0.length (a', z') z1'
  exact ⟨_, (p.bind hq).sees1, (p'.bind hq').sees1⟩

/-! ### The bias of the masks -/

theorem fibre_zero (k : Fin 131072) : intModulus * k.1 < 2 ^ 64 := by
  have := k.2
  have h : intModulus * 131071 < 2 ^ 64 := by decide
  exact lt_of_le_of_lt (Nat.mul_le_mul_left _ (by omega)) h

/-- C64, negation: a mask is a uniform 64-bit word reduced modulo `p` (ot.cpp:148-149), and 2^64 is not a multiple of `p`. For a share of one bit
and choice 1, no bijection of the drawn words makes the word that server 1 receives the same for the bits 0 and 1: its distribution depends on
server 0's share. -/
theorem C64_mask_bias : ¬ ∃ σ : U64 ≃ U64, ∀ raw : U64,
    otChoose (senderCol modW (fun _ => raw) 0 1 0#64 0#64).1 (valBits 1 1#64) =
      otChoose (senderCol modW (fun _ => σ raw) 0 1 1#64 0#64).1 (valBits 1 1#64) := by
  rintro ⟨σ, h⟩
  have hp : intModulus = 140737597931521 := rfl
  have red : ∀ w : U64, (redMod modW w).toNat = w.toNat % intModulus := fun w => by
    rw [redMod, if_neg (by decide), BitVec.toNat_umod, modW_toNat]
  have add1 : ∀ w : U64, (redMod modW (redMod modW w + 1#64)).toNat = (w.toNat % intModulus + 1) % intModulus := fun w => by
    have := Nat.mod_lt w.toNat (show 0 < intModulus by decide)
    rw [red, BitVec.toNat_add, red, show (1#64 : U64).toNat = 1 from rfl, Nat.mod_eq_of_lt (a := _ + 1) (by omega)]
  have sub1 : ∀ w : U64, (redMod modW (redMod modW w + (otMax modW - 1#64 + 1#64))).toNat = (w.toNat % intModulus + (intModulus - 1)) % intModulus :=
    fun w => by
      have := Nat.mod_lt w.toNat (show 0 < intModulus by decide)
      rw [red, BitVec.toNat_add, red, show (otMax modW - 1#64 + 1#64 : U64).toNat = intModulus - 1 by decide,
        Nat.mod_eq_of_lt (a := _ + (intModulus - 1)) (by omega)]
  have key : ∀ w : U64, (w.toNat % intModulus + 1) % intModulus = ((σ w).toNat % intModulus + (intModulus - 1)) % intModulus := by
    intro w
    have := h w
    simp only [senderCol, valBits, otChoose, List.zipWith_cons_cons, List.zipWith_nil_right, List.cons.injEq, and_true] at this
    have := congrArg BitVec.toNat this
    rw [← add1, ← sub1]
    simpa using this
  -- the words that are 0 modulo p come from words that are p - 2
  have fib : ∀ k : Fin 131072, ((σ.symm (BitVec.ofNat 64 (intModulus * k.1))).toNat) % intModulus = intModulus - 2 := by
    intro k
    have e := key (σ.symm (BitVec.ofNat 64 (intModulus * k.1)))
    rw [Equiv.apply_symm_apply, BitVec.toNat_ofNat, Nat.mod_eq_of_lt (fibre_zero k), Nat.mul_mod_right, Nat.zero_add] at e
    have := Nat.mod_lt (σ.symm (BitVec.ofNat 64 (intModulus * k.1))).toNat (show 0 < intModulus by decide)
    generalize (σ.symm (BitVec.ofNat 64 (intModulus * k.1))).toNat = q at e this ⊢
    rw [hp] at e this ⊢
    omega
  have hlt : ∀ k : Fin 131072, (σ.symm (BitVec.ofNat 64 (intModulus * k.1))).toNat / intModulus < 131071 := by
    intro k
    have e := fib k
    have := (σ.symm (BitVec.ofNat 64 (intModulus * k.1))).isLt
    generalize (σ.symm (BitVec.ofNat 64 (intModulus * k.1))).toNat = q at e this ⊢
    rw [hp] at e ⊢
    omega
  have inj : Function.Injective fun k : Fin 131072 =>
      (⟨(σ.symm (BitVec.ofNat 64 (intModulus * k.1))).toNat / intModulus, hlt k⟩ : Fin 131071) := by
    intro k k' hk
    have hk := Fin.mk.inj hk
    have e := fib k
    have e' := fib k'
    have : (σ.symm (BitVec.ofNat 64 (intModulus * k.1))).toNat = (σ.symm (BitVec.ofNat 64 (intModulus * k'.1))).toNat := by
      rw [← Nat.div_add_mod (σ.symm (BitVec.ofNat 64 (intModulus * k.1))).toNat intModulus,
        ← Nat.div_add_mod (σ.symm (BitVec.ofNat 64 (intModulus * k'.1))).toNat intModulus, hk, e, e']
    have := σ.symm.injective (BitVec.eq_of_toNat_eq this)
    have := congrArg BitVec.toNat this
    rw [BitVec.toNat_ofNat, BitVec.toNat_ofNat, Nat.mod_eq_of_lt (fibre_zero k), Nat.mod_eq_of_lt (fibre_zero k')] at this
    exact Fin.ext (Nat.eq_of_mul_eq_mul_left (by decide) this)
  have := Fintype.card_le_of_injective _ inj
  simp at this

/-! ### Non-vacuity -/

/-- The honest clients' rows can be sent. -/
theorem var_streams {nbits : ℕ} {a s s2 : Fin n → U64} {w : Fin n → List ℤ} {t : RootTables} {r : Fin n → Draws varCircuit} {f0 f1 : Fin n → SnipRow}
    (hf : HonestRows varCircuit t (fun i => varVals0 nbits (s i) (s2 i)) (fun i => varVals1 nbits (a i) (s i) (s2 i)) w r f0 f1)
    (hk : ∀ i, (key i).length = pkLength) (l : List (Fin n)) :
    (∃ s0, VarStream l.length s0 (fill key (l.map Sum.inl) f0)) ∧ ∃ s1, VarStream l.length s1 (fill key (l.map Sum.inl) f1) := by
  have hl : ∀ f : Fin n → SnipRow, (fill key (l.map Sum.inl) f).length = l.length := fun f => by simp [fill]
  constructor
  · obtain ⟨bs, -, h⟩ := var_stream (subs := fill key (l.map Sum.inl) f0) (by
      intro e he
      simp only [fill, List.map_map, List.mem_map, Function.comp_apply, Sum.elim_inl] at he
      obtain ⟨i, -, rfl⟩ := he
      exact ⟨hk i, by rw [hf.vals0 i]; rfl, (share_sizes (r i).2 (hf.pks i)).1⟩)
    exact ⟨bs, [], by rw [← hl f0]; simpa using h []⟩
  · obtain ⟨bs, -, h⟩ := var_stream (subs := fill key (l.map Sum.inl) f1) (by
      intro e he
      simp only [fill, List.map_map, List.mem_map, Function.comp_apply, Sum.elim_inl] at he
      obtain ⟨i, -, rfl⟩ := he
      exact ⟨hk i, by rw [hf.vals1 i]; rfl, (share_sizes (r i).2 (hf.pks i)).2⟩)
    exact ⟨bs, [], by rw [← hl f1]; simpa using h []⟩

/-- Non-vacuity: three honest clients with the values 1, 5, 6 or 2, 3, 7, which have the same sum and the same sum of squares. -/
example : ∃ (key : Fin 3 → Bytes) (A : List (Fin 3 ⊕ Bytes × SnipRow)) (real real' : Fin 3 → U64) (t : RootTables) (st : SnipState),
    Arrives key A ∧ ∑ i, (real i).toNat % 2 ^ 4 ≡ ∑ i, (real' i).toNat % 2 ^ 4 [MOD intModulus] ∧
    ∑ i, ((real i).toNat % 2 ^ 4) ^ 2 ≡ ∑ i, ((real' i).toNat % 2 ^ 4) ^ 2 [MOD intModulus] ∧ real ≠ real' ∧ RootCalls [2] t ∧ SnipOk 5 0 0 st ∧
    IsOrder (id : Map SnipRow → Map SnipRow) ∧ ByKeys (id : Map SnipRow → Map SnipRow) ∧
    ∀ r : Fin 3 → Draws varCircuit, ∃ w f0 f1 s0 s1,
      HonestRows varCircuit t (fun _ => varVals0 4 0#64 0#64) (fun i => varVals1 4 (real i) 0#64 0#64) w r f0 f1 ∧
      VarStream A.length s0 (fill key A f0) ∧ VarStream A.length s1 (fill key A f1) := by
  obtain ⟨t0, h0⟩ := (⟨_, RootCalls.start⟩ : ∃ t, RootCalls [] t)
  obtain ⟨t, ht⟩ := C30_sizes (c := varCircuit) (by decide) [] _ .start
  let key : Fin 3 → Bytes := fun i => List.replicate 32 (BitVec.ofNat 8 i.1)
  refine ⟨key, (List.finRange 3).map Sum.inl, ![1#64, 5#64, 6#64], ![2#64, 3#64, 7#64], t, _,
    ⟨by decide, fun i => List.mem_map.2 ⟨i, List.mem_finRange i, rfl⟩, fun e he => by simp at he⟩, by decide, by decide, by decide, ht,
    fresh_ok h0, fun m => List.Perm.refl _, fun m m' h => h, fun r => ?_⟩
  choose w hw using fun i => clientVar_wires (by omega : 4 ≤ 31) ((![1#64, 5#64, 6#64] : Fin 3 → U64) i)
  obtain ⟨⟨f0, f1, hf⟩, -⟩ := var_rows ![1#64, 5#64, 6#64] (fun _ => 0#64) (fun _ => 0#64) hw ht r
  obtain ⟨⟨s0, h0⟩, s1, h1⟩ := var_streams (key := key) hf (fun i => by simp [key, pkLength]) (List.finRange 3)
  exact ⟨w, f0, f1, s0, s1, hf, by simpa using h0, by simpa using h1⟩

end Verif

import Verif.LemmasInvalidVar
import Verif.ModelInvalidLin
import Verif.PropsEndLin
import Verif.LemmasRedraw

/-!
# The clients of `lin_reg_invalid`, one by one
-/

namespace Verif

/-! ## The draws -/

theorem sixGen_eq (g : Prg) : ∀ i, sixGen g i = { g with pos := g.pos + 6 * i }
  | 0 => rfl
  | i + 1 => by
    rw [sixGen, sixGen_eq g i]
    simp only [linSix, Prg.word, Prg.mk.injEq, true_and]
    omega

theorem sixKey_eq (g : Prg) (i : ℕ) : sixKey g i = pubKeyToHex (g.blk (g.pos + 6 * (i + 1))) := by
  have e : (linSix (sixGen g i)).2 = { g with pos := g.pos + 6 * (i + 1) } := sixGen_eq g (i + 1)
  rw [sixKey, makePk, e]
  simp only [Prg.blk]

/-- The keys are distinct. -/
theorem sixKey_distinct {g : Prg} (ha : Function.Injective g.aes) {n : ℕ} (hc : g.pos + 6 * n < 2 ^ 64) :
    ∀ i < n, ∀ j < n, sixKey g i = sixKey g j → i = j := by
  intro i hi j hj h
  rw [sixKey_eq, sixKey_eq] at h
  have h := congrArg BitVec.toNat (ha (C54_injective h))
  rw [ctr_toNat (by omega), ctr_toNat (by omega)] at h
  omega

/-! ## The circuit -/

/-- The circuit of `CheckLinReg(2)`. -/
def lin2 : Circuit := ⟨[.input, .input, .input, .input, .mul 0 0, mulByNegOne intModulus 2, .add 4 5, .mul 1 0, mulByNegOne intModulus 3, .add 7 8], [6, 9], [4, 7]⟩

theorem checkLin2 : checkLinReg intModulus 2 = some lin2 := rfl

theorem lin2_ok : CircOk lin2 := by
  obtain ⟨c, h, hok, -⟩ := linCircuit (d := 2) (by norm_num) (by decide)
  rw [checkLin2] at h; cases h; exact hok

theorem lin2Eval (x y q r : ℤ) : ∃ b, lin2.eval intModulus [x, y, q, r] =
    some ([x, y, q, r, fmod (x * x) intModulus, fmod (q * (intModulus - 1)) intModulus,
      fmod (fmod (x * x) intModulus + fmod (q * (intModulus - 1)) intModulus) intModulus, fmod (y * x) intModulus,
      fmod (r * (intModulus - 1)) intModulus, fmod (fmod (y * x) intModulus + fmod (r * (intModulus - 1)) intModulus) intModulus], b) := by
  refine ⟨_, rfl⟩

/-- Only the wires of the multiplications go into the packets. -/
theorem lin2Share_wires (x y m m' q r a b c e q' r' a' b' c' e' : ℤ) (t : RootTables) (s : SnipRand) :
    sharePolynomials intModulus lin2 [x, y, q, r, m, a, b, m', c, e] t s = sharePolynomials intModulus lin2 [x, y, q', r', m, a', b', m', c', e'] t s := by
  unfold sharePolynomials
  rfl

/-- What the circuit checks. -/
theorem lin2_true (x y q r : ℤ) : ∃ w b, lin2.eval intModulus [x, y, q, r] = some (w, b) ∧
    (b = true ↔ (q : ZMod intModulus) = x * x ∧ (r : ZMod intModulus) = y * x) := by
  obtain ⟨c, h, -, -, -, -, hev⟩ := linCircuit (d := 2) (by norm_num) (by decide)
  rw [checkLin2] at h; cases h
  obtain ⟨w, b, e, hb⟩ := hev [x, y, q, r] rfl
  refine ⟨w, b, e, hb.trans ?_⟩
  constructor
  · rintro ⟨xs, z, hl, h⟩
    obtain ⟨v, rfl⟩ := List.length_eq_one_iff.1 hl
    simp [residues, regressionRow, pairProducts] at h
    obtain ⟨h1, h2, h3, h4⟩ := h
    rw [h1, h2, h3, h4]
    exact ⟨rfl, rfl⟩
  · rintro ⟨h1, h2⟩
    refine ⟨[(x : ZMod intModulus)], y, rfl, ?_⟩
    simp [residues, regressionRow, pairProducts, h1, h2]

section Clients
variable {nbits : ℕ}

/-! ## The values -/

theorem badX_eq (d : ℕ → LinSix) (i : ℕ) : badX nbits d i = varReal nbits (fun i => (d i).x) i := rfl

theorem badY_toNat (hb : nbits ≤ 31) (d : ℕ → LinSix) (i : ℕ) : (badY nbits d i).toNat = (d i).y.toNat % 2 ^ nbits := mod_shl (by omega) _

theorem badY_lt (hb : nbits ≤ 31) (d : ℕ → LinSix) (i : ℕ) : (badY nbits d i).toNat < 2 ^ nbits := by
  rw [badY_toNat hb]; exact Nat.mod_lt _ (by positivity)

theorem badX_range (hb : nbits ≤ 31) (d : ℕ → LinSix) {i : ℕ} : (badX nbits d i).toNat < 2 ^ nbits ↔ i ≠ 0 := by
  rw [badX_eq]; exact varReal_range hb _

theorem linProd_toNat (hb : nbits ≤ 24) (d : ℕ → LinSix) (i : ℕ) :
    (badX nbits d i * badY nbits d i).toNat = (badX nbits d i).toNat * (badY nbits d i).toNat := by
  have h := varReal_lt (by omega : nbits ≤ 31) (fun i => (d i).x) i
  rw [← badX_eq] at h
  have h' := badY_lt (by omega : nbits ≤ 31) d i
  have h2 : (2 : ℕ) ^ (nbits + 1) ≤ 2 ^ 25 := Nat.pow_le_pow_right (by norm_num) (by omega)
  have h3 : (2 : ℕ) ^ nbits ≤ 2 ^ 24 := Nat.pow_le_pow_right (by norm_num) hb
  have : (badX nbits d i).toNat * (badY nbits d i).toNat < 2 ^ 25 * 2 ^ 24 := Nat.mul_lt_mul'' (by omega) (by omega)
  rw [BitVec.toNat_mul, Nat.mod_eq_of_lt (by omega)]

theorem linSq_toNat (hb : nbits ≤ 24) (d : ℕ → LinSix) (i : ℕ) : (badX nbits d i * badX nbits d i).toNat = (badX nbits d i).toNat ^ 2 := by
  simp only [badX_eq]; exact varSq_toNat hb _ i

theorem badX2_eq (hb : nbits ≤ 24) (d : ℕ → LinSix) {i : ℕ} (h : i ≠ 3) : (badX2 nbits d i).toNat = (badX nbits d i).toNat ^ 2 := by
  unfold badX2; dsimp only; rw [if_neg h, linSq_toNat hb]

theorem badXY_eq (hb : nbits ≤ 24) (d : ℕ → LinSix) {i : ℕ} (h : i ≠ 4) :
    (badXY nbits d i).toNat = (badX nbits d i).toNat * (badY nbits d i).toNat := by
  unfold badXY; dsimp only; rw [if_neg h, linProd_toNat hb]

theorem badX2_lt (hb : nbits ≤ 24) (d : ℕ → LinSix) {i : ℕ} (hi : i ≠ 0) : (badX2 nbits d i).toNat < 2 ^ (2 * nbits) := by
  unfold badX2
  dsimp only
  split
  · rw [BitVec.toNat_umod, sq_shl (by omega)]; exact Nat.mod_lt _ (by positivity)
  · rw [linSq_toNat hb, mul_comm 2 nbits, pow_mul]
    exact Nat.pow_lt_pow_left ((badX_range (by omega) d).2 hi) (by norm_num)

theorem badXY_lt (hb : nbits ≤ 24) (d : ℕ → LinSix) {i : ℕ} (hi : i ≠ 0) : (badXY nbits d i).toNat < 2 ^ (2 * nbits) := by
  unfold badXY
  dsimp only
  split
  · rw [BitVec.toNat_umod, sq_shl (by omega)]; exact Nat.mod_lt _ (by positivity)
  · rw [linProd_toNat hb, two_mul, pow_add]
    exact Nat.mul_lt_mul'' ((badX_range (by omega) d).2 hi) (badY_lt (by omega) d i)

/-! ## Ranges -/

/-- Which clients have shares in range at both servers. -/
def heldD (nbits : ℕ) (d : ℕ → LinSix) (i : ℕ) : Bool :=
  !(i == 0 || i == 9 || i == 11 || i == 13) && (i != 1 || decide ((d 1).y0.toNat < 2 ^ nbits)) && (i != 2 || decide ((d 2).x20.toNat < 2 ^ (2 * nbits)))

theorem heldD_iff (d : ℕ → LinSix) (i : ℕ) : heldD nbits d i = true ↔
    i ≠ 0 ∧ i ≠ 9 ∧ i ≠ 11 ∧ i ≠ 13 ∧ (i = 1 → (d 1).y0.toNat < 2 ^ nbits) ∧ (i = 2 → (d 2).x20.toNat < 2 ^ (2 * nbits)) := by
  simp only [heldD, Bool.and_eq_true, Bool.not_eq_true', Bool.or_eq_false_iff, beq_eq_false_iff_ne, Bool.or_eq_true, bne_iff_ne, decide_eq_true_eq]
  tauto

theorem linFits_bad0 (hb : nbits ≤ 24) (d : ℕ → LinSix) (i : ℕ) (p : Packet) : linFits nbits (linBad0 nbits d i p) = true ↔
    (i = 1 → (d 1).y0.toNat < 2 ^ nbits) ∧ (i = 2 → (d 2).x20.toNat < 2 ^ (2 * nbits)) := by
  have hm : ∀ a : U64, (a % (1#64 <<< nbits)).toNat < 2 ^ nbits := fun a => by rw [mod_shl (by omega)]; exact Nat.mod_lt _ (by positivity)
  have hm2 : ∀ a : U64, (a % ((1#64 <<< nbits) * (1#64 <<< nbits))).toNat < 2 ^ (2 * nbits) := fun a => by
    rw [BitVec.toNat_umod, sq_shl (by omega)]; exact Nat.mod_lt _ (by positivity)
  simp only [linFits, linBad0, List.all_cons, List.all_nil, Bool.and_true, Bool.and_eq_true, decide_eq_true_eq, hm, hm2, true_and, and_true]
  by_cases h1 : i = 1
  · subst h1
    simp only [ne_eq, not_true_eq_false, if_false, show ¬ (1 = 2) by omega, not_false_eq_true, if_true, hm2]
    simp
  · by_cases h2 : i = 2
    · subst h2
      simp only [ne_eq, show ¬ (2 = 1) by omega, not_false_eq_true, if_true, hm, not_true_eq_false, if_false]
      simp
    · simp only [ne_eq, h1, h2, not_false_eq_true, if_true, hm, hm2]
      simp

theorem linFits_bad1 (hb : nbits ≤ 24) (d : ℕ → LinSix) {i : ℕ} (p p' : Packet) (h : linFits nbits (linBad0 nbits d i p) = true) :
    linFits nbits (linBad1 nbits d i p') = true ↔ i ≠ 0 := by
  have hp : linFits nbits (linBad0 nbits d i p') = true := h
  simp only [linFits, linBad1, linBad0, List.map_cons, List.map_nil, List.all_cons, List.all_nil, Bool.and_true, Bool.and_eq_true, decide_eq_true_eq,
    BitVec.toNat_xor] at hp ⊢
  obtain ⟨⟨⟨a1, a2⟩, a3⟩, a4⟩ := hp
  replace a2 := of_decide_eq_true a2
  rw [Nat.xor_comm, xor_range a1, badX_range (by omega)]
  constructor
  · exact fun h => h.1.1.1
  · intro h0
    refine ⟨⟨⟨h0, ?_⟩, ?_⟩, ?_⟩
    · exact Nat.xor_lt_two_pow a2 (badY_lt (by omega) d i)
    · exact Nat.xor_lt_two_pow a3 (badX2_lt hb d h0)
    · exact Nat.xor_lt_two_pow a4 (badXY_lt hb d h0)

/-- Server 1 refuses the row of client 0, and those of clients 1 and 2 if their words are out of range. -/
theorem linRow1_refused (hb : nbits ≤ 24) (d : ℕ → LinSix) {i : ℕ} (hi : i < 3) (h1 : 2 ^ nbits ≤ (d 1).y0.toNat) (h2 : 2 ^ (2 * nbits) ≤ (d 2).x20.toNat)
    (p : Packet) : linFits nbits (linBad1 nbits d i p) = false := by
  rw [← Bool.not_eq_true]
  intro h
  by_cases h0 : i = 0
  · have hf := (linFits_bad0 hb d i p).2 ⟨by omega, by omega⟩
    exact (linFits_bad1 hb d p p hf).1 h h0
  · simp only [linFits, linBad1, linBad0, List.map_cons, List.map_nil, List.all_cons, List.all_nil, Bool.and_true, Bool.and_eq_true, decide_eq_true_eq,
      BitVec.toNat_xor] at h
    obtain ⟨⟨⟨-, a2⟩, a3⟩, -⟩ := h
    have : i = 1 ∨ i = 2 := by omega
    rcases this with rfl | rfl
    · rw [xor_range (badY_lt (by omega) d 1)] at a2
      simp at a2; omega
    · rw [xor_range (badX2_lt hb d h0)] at a3
      simp at a3; omega

/-- What the servers reconstruct. -/
theorem linRec_bad (d : ℕ → LinSix) (i : ℕ) (p0 p1 : Packet) : linRec (linBad0 nbits d i p0) (linBad1 nbits d i p1) =
    ⟨[(badX nbits d i).toNat], (badY nbits d i).toNat, [(badX2 nbits d i).toNat], [(badXY nbits d i).toNat]⟩ := by
  have hx : ∀ a b : U64, a ^^^ (a ^^^ b) = b := fun a b => by rw [← BitVec.xor_assoc, BitVec.xor_self, BitVec.zero_xor]
  simp only [linRec, linBad0, linBad1, xors, List.map_cons, List.map_nil, List.zipWith_cons_cons, List.zipWith_nil_left, hx]

theorem linBad_rowOk {c : Circuit} (d : ℕ → LinSix) (i : ℕ) {p : Packet} (h : PacketOk c p) :
    LinRowOk c 2 (linBad0 nbits d i p) ∧ LinRowOk c 2 (linBad1 nbits d i p) := ⟨⟨rfl, rfl, rfl, h⟩, ⟨rfl, rfl, rfl, h⟩⟩

/-! ## The packets -/

/-- Client `i` is defined. -/
theorem linBad_some (hb : nbits ≤ 24) {t : RootTables} {l : List ℕ} (hrc : RootCalls (4 :: l) t) {rand : ℕ → SnipRand} (d : ℕ → LinSix) {i : ℕ}
    (hr : ValidRand intModulus lin2 (rand i)) : ∃ pk w b q z,
      lin2.eval intModulus [((badX nbits d i).toNat : ℤ), ((badY nbits d i).toNat : ℤ), q, z] = some (w, b) ∧
      (i ≠ 3 → i ≠ 4 → q = ((badX2 nbits d i).toNat : ℤ) ∧ z = ((badXY nbits d i).toNat : ℤ)) ∧
      sharePolynomials intModulus lin2 w t (rand i) = some pk ∧
      linBad nbits t rand d i = some (linBad0 nbits d i (tamper i pk).1, linBad1 nbits d i (tamper i pk).2) := by
  have hv := varReal_lt (by omega : nbits ≤ 31) (fun i => (d i).x) i
  rw [← badX_eq] at hv
  have hy := badY_lt (by omega : nbits ≤ 31) d i
  have h2 : (2 : ℕ) ^ (nbits + 1) ≤ 2 ^ 25 := Nat.pow_le_pow_right (by norm_num) (by omega)
  have h3 : (2 : ℕ) ^ nbits ≤ 2 ^ 24 := Nat.pow_le_pow_right (by norm_num) hb
  have ht : (badX nbits d i).toInt = ((badX nbits d i).toNat : ℤ) := BitVec.toInt_eq_toNat_of_lt (by omega)
  have ht' : (badY nbits d i).toInt = ((badY nbits d i).toNat : ℤ) := BitVec.toInt_eq_toNat_of_lt (by omega)
  set q := (badX2 nbits d i).toInt with hq
  set z := (if i = 4 then badX nbits d i * badY nbits d i else badXY nbits d i).toInt with hz
  obtain ⟨b, hev⟩ := lin2Eval ((badX nbits d i).toNat : ℤ) ((badY nbits d i).toNat : ℤ) q z
  obtain ⟨pk0, pk1, hpk, -⟩ := client_spec (p := intModulus) intModulus_two_ne lin2_ok.wf
    (w := [((badX nbits d i).toNat : ℤ), ((badY nbits d i).toNat : ℤ), q, z, _, _, _, _, _, _]) rfl
    ((C02_tables_after_any_history _ _ hrc).1 _ _ rfl) hr.lh hr.lm
  refine ⟨(pk0, pk1), _, b, q, z, hev, ?_, hpk, ?_⟩
  · intro i3 i4
    have hs : (badX nbits d i).toNat ^ 2 < 2 ^ 63 := by
      calc (badX nbits d i).toNat ^ 2 < (2 ^ 25) ^ 2 := Nat.pow_lt_pow_left (by omega) (by norm_num)
        _ ≤ 2 ^ 63 := by norm_num
    have hp : (badX nbits d i).toNat * (badY nbits d i).toNat < 2 ^ 25 * 2 ^ 24 := Nat.mul_lt_mul'' (by omega) (by omega)
    have e1 := badX2_eq hb d i3
    have e2 := badXY_eq hb d i4
    exact ⟨BitVec.toInt_eq_toNat_of_lt (by omega), by rw [hz, if_neg i4]; exact BitVec.toInt_eq_toNat_of_lt (by omega)⟩
  · rw [linBad, checkLin2, Option.bind_some]
    simp only [List.map_cons, List.map_nil, ht, ht', ← hq, ← hz]
    rw [hev, Option.bind_some, hpk, Option.map_some]

/-! ## Which submissions are proven -/

theorem badX2_wrong (h1 : 1 ≤ nbits) (hb : nbits ≤ 24) (d : ℕ → LinSix) :
    ((badX2 nbits d 3).toNat : ZMod intModulus) ≠ ((badX nbits d 3).toNat : ZMod intModulus) * (badX nbits d 3).toNat := by
  rw [← pow_two]
  exact varSquared_wrong h1 hb (fun i => (d i).x) (i := 3) (.inl rfl)

theorem badXY_wrong (h1 : 1 ≤ nbits) (hb : nbits ≤ 24) (d : ℕ → LinSix) :
    ((badXY nbits d 4).toNat : ZMod intModulus) ≠ ((badY nbits d 4).toNat : ZMod intModulus) * (badX nbits d 4).toNat := by
  have hv : (badX nbits d 4).toNat < 2 ^ nbits := (badX_range (by omega) d).2 (by omega)
  have hy := badY_lt (by omega : nbits ≤ 31) d 4
  have hv2 : (badX nbits d 4).toNat * (badY nbits d 4).toNat < 2 ^ (2 * nbits) := by
    rw [two_mul, pow_add]; exact Nat.mul_lt_mul'' hv hy
  have h48 : (2 : ℕ) ^ (2 * nbits) ≤ 2 ^ 48 := Nat.pow_le_pow_right (by norm_num) (by omega)
  have e : (badXY nbits d 4).toNat = ((badX nbits d 4).toNat * (badY nbits d 4).toNat + 10) % 2 ^ (2 * nbits) := by
    unfold badXY
    dsimp only
    rw [if_pos rfl, BitVec.toNat_umod, sq_shl (by omega), BitVec.toNat_add, linProd_toNat hb]
    have : (10#64 : U64).toNat = 10 := rfl
    rw [this, Nat.mod_eq_of_lt (show _ < 2 ^ 64 by omega)]
  rw [e, mul_comm ((badY nbits d 4).toNat : ZMod intModulus), ← Nat.cast_mul, Ne, ZMod.natCast_eq_natCast_iff']
  exact sq_wrong h1 hb hv2 (by decide) (by decide) (by decide)

/-- Clients 3 to 8 are not proven: wrong products, tampered packets. (For 6 and 8 the change must matter.) -/
theorem linBad_not_proven (h1 : 1 ≤ nbits) (hb : nbits ≤ 24) {t : RootTables} {l : List ℕ} (hrc : RootCalls (4 :: l) t) {rand : ℕ → SnipRand}
    (d : ℕ → LinSix) {i : ℕ} (hr : ValidRand intModulus lin2 (rand i)) (hi : 3 ≤ i) (hi' : i ≤ 8)
    (h6 : i = 6 → ((rand 6).g0 : ZMod intModulus) ≠ 0 ∨ (badX nbits d 6).toNat ≠ 0) (h8 : i = 8 → (rand 8).B ≠ 0) {o : LinRow × LinRow}
    (ho : linBad nbits t rand d i = some o) :
    ¬ Proven lin2 t ((linRec o.1 o.2).all.map fun v : ℕ => fmod (v : ℤ) intModulus) o.1.packet o.2.packet := by
  obtain ⟨pk, w, b, q, z, hev, hqz, hpk, ho'⟩ := linBad_some hb hrc d hr
  rw [ho] at ho'
  cases ho'
  have hxv : (badX nbits d i).toNat < 2 ^ nbits := (badX_range (by omega) d).2 (by omega)
  have hyv := badY_lt (by omega : nbits ≤ 31) d i
  have h24 : (2 : ℕ) ^ nbits ≤ 2 ^ 24 := Nat.pow_le_pow_right (by norm_num) hb
  have hpv : 2 ^ 24 < intModulus := by decide
  have hrec : ((linRec (linBad0 nbits d i (tamper i pk).1) (linBad1 nbits d i (tamper i pk).2)).all.map fun v : ℕ => fmod (v : ℤ) intModulus) =
      [((badX nbits d i).toNat : ℤ), ((badY nbits d i).toNat : ℤ), fmod (badX2 nbits d i).toNat intModulus, fmod (badXY nbits d i).toNat intModulus] := by
    rw [linRec_bad]
    simp only [LinVal.all, List.cons_append, List.nil_append, List.map_cons, List.map_nil]
    rw [fmod_small (by omega), fmod_small (by omega)]
  dsimp only
  rw [hrec]
  have hne : NeZero intModulus := ⟨by decide⟩
  obtain ⟨w', b', hev', hb'⟩ := lin2_true ((badX nbits d i).toNat : ℤ) ((badY nbits d i).toNat : ℤ) (fmod (badX2 nbits d i).toNat intModulus)
    (fmod (badXY nbits d i).toNat intModulus)
  simp only [fmod_cast, Int.cast_natCast] at hb'
  by_cases h34 : i = 3 ∨ i = 4
  · rintro ⟨w2, hev2, -⟩
    rw [hev'] at hev2; cases hev2
    have := hb'.1 rfl
    rcases h34 with rfl | rfl
    · exact badX2_wrong h1 hb d this.1
    · exact badXY_wrong h1 hb d this.2
  have hbt : b' = true := by
    rw [hb', badX2_eq hb d (by omega), badXY_eq hb d (by omega)]
    push_cast
    exact ⟨pow_two _, mul_comm _ _⟩
  subst hbt
  have hpk' : sharePolynomials intModulus lin2 w' t (rand i) = some (pk.1, pk.2) := by
    obtain ⟨b1, e1⟩ := lin2Eval ((badX nbits d i).toNat : ℤ) ((badY nbits d i).toNat : ℤ) q z
    obtain ⟨b2, e2⟩ := lin2Eval ((badX nbits d i).toNat : ℤ) ((badY nbits d i).toNat : ℤ) (fmod (badX2 nbits d i).toNat intModulus)
      (fmod (badXY nbits d i).toNat intModulus)
    rw [e1] at hev; cases hev
    rw [e2] at hev'; cases hev'
    rw [← hpk]
    exact lin2Share_wires _ _ _ _ _ _ _ _ _ _ _ _ _ _ _ _ _ _
  have hcan : ∀ v ∈ [((badX nbits d i).toNat : ℤ), ((badY nbits d i).toNat : ℤ), fmod (badX2 nbits d i).toNat intModulus,
      fmod (badXY nbits d i).toNat intModulus], Canon v intModulus := by
    intro v hv
    simp only [List.mem_cons, List.not_mem_nil, or_false] at hv
    rcases hv with rfl | rfl | rfl | rfl
    · exact ⟨by omega, by omega⟩
    · exact ⟨by omega, by omega⟩
    · exact fmod_canon _
    · exact fmod_canon _
  obtain ⟨z0, z1⟩ := tamper_sizes hr hpk i
  refine not_proven_of_refused lin2_ok hev' hcan hrc z0.1 z1.1 (by decide) ?_
  obtain ⟨q1, q2, q3, q4⟩ := C69_off_by_one lin2_ok hev' hcan hrc hr hpk'
  have : i = 5 ∨ i = 6 ∨ i = 7 ∨ i = 8 := by omega
  rcases this with rfl | rfl | rfl | rfl
  · exact q1 0 (by decide)
  · refine q3 ?_
    rcases h6 rfl with h | h
    · exact .inl h
    · right
      refine ⟨0, by decide, ?_⟩
      obtain ⟨b2, e2⟩ := lin2Eval ((badX nbits d 6).toNat : ℤ) ((badY nbits d 6).toNat : ℤ) (fmod (badX2 nbits d 6).toNat intModulus)
        (fmod (badXY nbits d 6).toNat intModulus)
      rw [e2] at hev'; cases hev'
      show (((badX nbits d 6).toNat : ℤ) : ZMod intModulus) ≠ 0
      intro h'
      rw [ZMod.intCast_zmod_eq_zero_iff_dvd] at h'
      have := Int.eq_zero_of_dvd_of_nonneg_of_lt (by omega) (by omega) h'
      omega
  · exact q2 0 (by decide)
  · exact q4 (h8 rfl)

/-- The other clients held by both servers always pass. -/
theorem linBad_passes (hb : nbits ≤ 24) {t : RootTables} {l : List ℕ} (hrc : RootCalls (4 :: l) t) {rand : ℕ → SnipRand} {d : ℕ → LinSix} {i : ℕ}
    (hr : ValidRand intModulus lin2 (rand i)) (hi : i < 3 ∨ 8 < i) {o : LinRow × LinRow} (ho : linBad nbits t rand d i = some o)
    {subs0 subs1 : List (Bytes × LinRow)} {k : Bytes} (f0 : firstOf (linFits nbits) subs0 k = some o.1)
    (f1 : firstOf (linFits nbits) subs1 k = some o.2) {x : ℤ} (hx : Canon x intModulus) {cs : List ℤ} (hcs : 3 ≤ cs.length) :
    LinPasses lin2 x nbits subs0 subs1 cs k := by
  obtain ⟨pk, w, b, q, z, hev, hqz, hpk, ho'⟩ := linBad_some hb hrc d hr
  rw [ho] at ho'
  cases ho'
  have ht : tamper i pk = pk := by
    unfold tamper
    rw [if_neg (by omega), if_neg (by omega), if_neg (by omega), if_neg (by omega)]
  obtain ⟨rfl, rfl⟩ := hqz (by omega) (by omega)
  refine ⟨_, _, f0, f1, ?_⟩
  rw [linRec_bad, ht]
  obtain ⟨w', b', hev', hb'⟩ := lin2_true ((badX nbits d i).toNat : ℤ) ((badY nbits d i).toNat : ℤ) ((badX2 nbits d i).toNat : ℤ) ((badXY nbits d i).toNat : ℤ)
  have hbt : b' = true := by
    rw [hb', badX2_eq hb d (by omega), badXY_eq hb d (by omega)]
    push_cast
    exact ⟨pow_two _, mul_comm _ _⟩
  subst hbt
  rw [hev'] at hev
  cases hev
  have hcs' : lin2.resultZero.length + 1 ≤ cs.length := hcs
  show Accepts lin2 x cs _ pk.1 pk.2
  refine accepts_honest lin2_ok.wf hev' (by simp [LinVal.all]) ?_ hrc hr.lh hr.lm hpk hx hcs'
  intro k hk
  simp only [LinVal.all, List.cons_append, List.nil_append, List.map_cons, List.map_nil]
  match k, (show k < 4 from hk) with
  | 0, _ => exact fmod_cast (p := intModulus) ((badX nbits d i).toNat : ℤ)
  | 1, _ => exact fmod_cast (p := intModulus) ((badY nbits d i).toNat : ℤ)
  | 2, _ => exact fmod_cast (p := intModulus) ((badX2 nbits d i).toNat : ℤ)
  | 3, _ => exact fmod_cast (p := intModulus) ((badXY nbits d i).toNat : ℤ)

end Clients

end Verif

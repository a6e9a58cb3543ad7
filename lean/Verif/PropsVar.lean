import Verif.LemmasSnipRun
import Verif.LemmasVarNear
import Verif.ModelClientSnip
import Verif.PropsMax

/-!
# C33, C34, C40, C41, C48, C49, C56 for VAR and STDDEV
-/

namespace Verif

/-! ## Specification -/

/-- The first `total` submissions on the stream `s`. -/
def VarStream (total : ℕ) (s : Bytes) (subs : List (Bytes × SnipRow)) : Prop :=
  ∃ rest, ((rdVarShare 1).rep total).run s = some (subs, rest)

/-- The share of the value fits in `nbits` bits and that of the square in twice as many. -/
def varFits (nbits : ℕ) (r : SnipRow) : Bool :=
  decide ((r.vals.getD 0 0#64).toNat < 2 ^ nbits) && decide ((r.vals.getD 1 0#64).toNat < 2 ^ (2 * nbits))

/-- Value and square submitted under a key: the XOR of the two servers' shares. -/
def varVal (nbits : ℕ) (subs0 subs1 : List (Bytes × SnipRow)) (j : ℕ) (k : Bytes) : ℕ :=
  match firstOf (varFits nbits) subs0 k, firstOf (varFits nbits) subs1 k with
  | some r0, some r1 => (r0.vals.getD j 0#64 ^^^ r1.vals.getD j 0#64).toNat
  | _, _ => 0

/-- The circuit of `CheckVar`. -/
def varCircuit : Circuit := ⟨[.input, .input, .mul 0 0, mulByNegOne intModulus 1, .add 2 3], [4], [2]⟩

theorem checkVar_eq : checkVar intModulus = some varCircuit := rfl

theorem varCircuit_ok : CircOk varCircuit := by
  refine ⟨?_, by decide⟩
  obtain ⟨c, h1, h2⟩ := (C27_wf (d := 1) le_rfl (by decide)).1
  cases h1; exact h2

/-- The keys whose submissions are counted: admitted at both servers, and the check passes. -/
noncomputable def varCounted (x : ℤ) (coef : ℕ → ℤ) (pos nbits : ℕ) (subs0 subs1 : List (Bytes × SnipRow)) (order : List Bytes) :
    Finset Bytes :=
  passing varCircuit x coef pos (varWidths nbits) (varFits nbits) subs0 subs1 order

/-! ## Intake -/

theorem takes_var (nMul : ℕ) : Takes (rdVarShare nMul) (pkLength + (8 * 2 + (8 * (nMul + npow2 nMul + 6) + 0))) fun e =>
    e.1.length = pkLength ∧ e.2.vals.length = 2 ∧ e.2.packet.mulShares.length = nMul ∧ e.2.packet.hPoints.length = npow2 nMul := by
  unfold rdVarShare
  refine Takes.get fun pk hpk => (takes_words 2).bind fun vs hvs => (takes_packet nMul).bind fun k hk => Takes.ret ?_
  exact ⟨hpk, hvs, hk.1, hk.2.1⟩

theorem VarStream.spec {total : ℕ} {s : Bytes} {subs : List (Bytes × SnipRow)} (h : VarStream total s subs) :
    subs.length = total ∧ Keyed subs ∧ ∀ e ∈ subs, SnipRowOk varCircuit 2 e.2 := by
  obtain ⟨rest, h⟩ := h
  obtain ⟨-, -, h1, h2⟩ := ((takes_var 1).rep total).of_run h
  exact ⟨h1, fun e he => (h2 e he).1, fun e he => ⟨(h2 e he).2.1, ⟨(h2 e he).2.2.1, (h2 e he).2.2.2⟩⟩⟩

/-- C49, for arbitrary bytes: a stream of at least `120` bytes per submission is read as some list of submissions, whatever it
contains. -/
theorem C49_var_any_stream (total : ℕ) (s : Bytes) (h : total * 120 ≤ s.length) : ∃ subs, VarStream total s subs := by
  have hp : npow2 1 = 2 := by decide
  obtain ⟨subs, e, -⟩ := ((takes_var 1).rep total s).2 (by rw [hp]; simpa [pkLength] using h)
  exact ⟨subs, _, e⟩

theorem shl_toNat {nbits : ℕ} (h : nbits < 64) : (1#64 <<< nbits : U64).toNat = 2 ^ nbits := by
  rw [BitVec.toNat_shiftLeft, Nat.shiftLeft_eq]
  have : 2 ^ nbits < 2 ^ 64 := Nat.pow_lt_pow_right (by omega) h
  simp only [BitVec.toNat_ofNat, Nat.one_mod]
  rw [Nat.mod_eq_of_lt] <;> omega

/-- C49. Up to 31 bits the tests of `var_op` are the intended ones. -/
theorem C49_var_range {nbits : ℕ} (h : nbits ≤ 31) : varOk (1#64 <<< nbits) = varFits nbits := by
  funext r
  have e1 := shl_toNat (nbits := nbits) (by omega)
  have e2 : ((1#64 <<< nbits : U64) * (1#64 <<< nbits)).toNat = 2 ^ (2 * nbits) := by
    rw [BitVec.toNat_mul, e1, ← pow_add, ← two_mul, Nat.mod_eq_of_lt]
    exact Nat.pow_lt_pow_right (by omega) (by omega)
  unfold varOk varFits
  simp only [BitVec.le_def, e1, e2]
  rw [← decide_not, ← decide_not]
  simp only [not_le]

/-- C49. From 32 to 63 bits the product wraps to 0 and every submission is refused. -/
theorem C49_var_wrap {nbits : ℕ} (h : 32 ≤ nbits) (h' : nbits < 64) (r : SnipRow) : varOk (1#64 <<< nbits) r = false := by
  have e1 := shl_toNat h'
  have e2 : ((1#64 <<< nbits : U64) * (1#64 <<< nbits)) = 0#64 := by
    apply BitVec.eq_of_toNat_eq
    rw [BitVec.toNat_mul, e1, ← pow_add]
    have : (2 : ℕ) ^ (nbits + nbits) = 2 ^ 64 * 2 ^ (nbits + nbits - 64) := by rw [← pow_add]; congr 1; omega
    rw [this, Nat.mul_mod_right]; rfl
  unfold varOk
  rw [e2]
  simp [BitVec.le_def]

theorem var_intake {nbits total : ℕ} (h : nbits ≤ 31) {s : Bytes} {subs : List (Bytes × SnipRow)} (hs : VarStream total s subs) :
    varIntake 1 nbits total s = some (admit (varFits nbits) subs []) := by
  obtain ⟨rest, hs⟩ := hs
  unfold varIntake maxVal
  rw [if_pos (by omega), Option.bind_some, hs, Option.map_some, C49_var_range h]

/-- C34 for VAR: what is stored under a key is the first admissible submission for it; each key is stored once. -/
theorem C34_var_intake {nbits total : ℕ} (h : nbits ≤ 31) {s : Bytes} {subs : List (Bytes × SnipRow)} (hs : VarStream total s subs) :
    ∃ m, varIntake 1 nbits total s = some m ∧ m.keys.Nodup ∧ ∀ k, List.lookup k m = firstOf (varFits nbits) subs k :=
  ⟨_, var_intake h hs, C34_keys_once _ _, C34_first_admissible _ _⟩

/-- C49. Whatever the clients send, a value counted is below `2^nbits` and a square below `2^(2 nbits)`. -/
theorem C49_var_vals (nbits : ℕ) (subs0 subs1 : List (Bytes × SnipRow)) (k : Bytes) :
    varVal nbits subs0 subs1 0 k < 2 ^ nbits ∧ varVal nbits subs0 subs1 1 k < 2 ^ (2 * nbits) := by
  unfold varVal
  rcases h0 : firstOf (varFits nbits) subs0 k with _ | r0 <;> rcases h1 : firstOf (varFits nbits) subs1 k with _ | r1 <;>
    simp only
  any_goals exact ⟨pow_pos (by norm_num) _, pow_pos (by norm_num) _⟩
  have a0 := firstOf_ok h0
  have a1 := firstOf_ok h1
  simp only [varFits, Bool.and_eq_true, decide_eq_true_eq] at a0 a1
  rw [BitVec.toNat_xor, BitVec.toNat_xor]
  exact ⟨Nat.xor_lt_two_pow a0.1 a1.1, Nat.xor_lt_two_pow a0.2 a1.2⟩

theorem keyVal_var (nbits : ℕ) (subs0 subs1 : List (Bytes × SnipRow)) (j : ℕ) (hj : j < 2) (k : Bytes) :
    keyVal (varWidths nbits) (varFits nbits) subs0 subs1 j k = varVal nbits subs0 subs1 j k := by
  have h := C49_var_vals nbits subs0 subs1 k
  unfold keyVal varVal at *
  rcases h0 : firstOf (varFits nbits) subs0 k with _ | r0 <;> rcases h1 : firstOf (varFits nbits) subs1 k with _ | r1 <;>
    simp only
  rw [h0, h1] at h
  simp only at h
  unfold recVal
  rw [Nat.mod_eq_of_lt]
  interval_cases j
  · simpa [varWidths] using h.1
  · simpa [varWidths, mul_comm nbits 2] using h.2

/-! ## C40: the operation -/

theorem getD_at0 (l : List ℤ) (j : ℕ) : l.getD j 0 = at0 l j := rfl

theorem var_pair (fma std : Bool) {nbits : ℕ} (hb : nbits ≤ 24) {total0 total1 : ℕ} (ht : total1 < 2 ^ 32) {s0 s1 : Bytes}
    {subs0 subs1 : List (Bytes × SnipRow)} (h0 : VarStream total0 s0 subs0) (h1 : VarStream total1 s1 subs1)
    (hne : ∃ e ∈ subs1, varFits nbits e.2 = true) {x : ℤ} {uses pos : ℕ} {st0 st1 : SnipState} (hs0 : SnipOk x uses pos st0)
    (hs1 : SnipOk x uses pos st1) (coef : ℕ → ℤ) (raw0 raw1 : ℕ → ℕ → ℕ → U64) (ord : Map SnipRow → Map SnipRow) (ho : IsOrder ord) :
    ∃ st0' st1', let o := (ord (admit (varFits nbits) subs1 [])).keys
      let G := varCounted x coef pos nbits subs0 subs1 o
      Pair (varOp0 fma std nbits total0 s0 coef raw0 st0) (varOp1 nbits total1 s1 coef raw1 st1 ord)
        (verdict G.card total0 (varAnswer fma std ((∑ k ∈ G, varVal nbits subs0 subs1 0 k) % intModulus : ℕ)
          ((∑ k ∈ G, varVal nbits subs0 subs1 1 k) % intModulus : ℕ) G.card), st0') (.noAns, st1') ∧
      SnipOk x (uses + o.length) (pos + o.length * 2) st0' ∧ SnipOk x (uses + o.length) (pos + o.length * 2) st1' := by
  obtain ⟨l0, k0, r0⟩ := h0.spec
  obtain ⟨l1, k1, r1⟩ := h1.spec
  have hp := ho (admit (varFits nbits) subs1 [])
  have hm : varCircuit.mulGates.length = 1 := rfl
  unfold varOp0 varOp1
  simp only [checkVar_eq, Proc.ofOption, Proc.bind, hm, var_intake (by omega : nbits ≤ 31) h0, var_intake (by omega : nbits ≤ 31) h1]
  generalize ord (admit (varFits nbits) subs1 []) = o at hp
  have hpos : 0 < o.length := by rw [hp.length_eq]; exact admit_pos hne
  have hw : ∀ w ∈ varWidths nbits, w ≤ 48 := by
    intro w hw
    simp only [varWidths, List.mem_cons, List.not_mem_nil, or_false] at hw
    omega
  obtain ⟨a, b, st0', st1', hpair, ha, hbl, hac, hbc, q0, q1, hsum, -⟩ := snipOp_pair varCircuit_ok hs0 hs1 coef
    (ws := varWidths nbits) (show nIn varCircuit.gates ≤ 2 by decide) hw raw0 raw1 (fun _ => [0#64, 0#64]) (fun _ => rfl) (varFits nbits) subs0 subs1 k1 r0 r1
    (by omega) o hp hpos
  have hol : o.keys.length = o.length := by simp [Map.keys]
  refine ⟨st0', st1', ?_, by rw [hol]; exact q0, by rw [hol]; exact q1⟩
  refine hpair.bind ?_
  have hb0 : Canon (b.getD 0 0) intModulus := by
    rw [List.getD_eq_getElem?_getD, List.getElem?_eq_getElem (by rw [hbl]; simp [varWidths])]
    exact hbc _ (List.getElem_mem _)
  have hb1 : Canon (b.getD 1 0) intModulus := by
    rw [List.getD_eq_getElem?_getD, List.getElem?_eq_getElem (by rw [hbl]; simp [varWidths])]
    exact hbc _ (List.getElem_mem _)
  rw [encFmpz_of_fits (fits_canon hb0), encFmpz_of_fits (fits_canon hb1)]
  refine (Pair.send10 (reads_fmpz (fits_canon hb0))).bind ?_
  refine (Pair.send10 (reads_fmpz (fits_canon hb1))).bind ?_
  have key : ∀ j < 2, fmod (b.getD j 0 + a.getD j 0) intModulus = ((∑ k ∈ varCounted x coef pos nbits subs0 subs1 o.keys,
      varVal nbits subs0 subs1 j k) % intModulus : ℕ) := by
    intro j hj
    have h := hsum j hj
    rw [Finset.sum_congr rfl fun k _ => keyVal_var nbits subs0 subs1 j hj k] at h
    refine canon_eq_of_cast (fmod_canon _) ⟨by omega, ?_⟩ ?_
    · exact_mod_cast Nat.mod_lt _ (by decide)
    · rw [fmod_cast]
      push_cast
      rw [add_comm]
      push_cast at h
      exact h
  rw [key 0 (by omega), key 1 (by omega), finish_eq]
  exact Pair.ret _ _

/-- C40, for all submissions, honest or not, all randomness, iteration orders and schedules: the answer is computed from the sums,
modulo `p`, of values and squares over exactly the counted keys; server 1 answers nothing. -/
theorem C40_var_op (fma std : Bool) {nbits : ℕ} (hb : nbits ≤ 24) {total0 total1 : ℕ} (ht : total1 < 2 ^ 32) {s0 s1 : Bytes}
    {subs0 subs1 : List (Bytes × SnipRow)} (h0 : VarStream total0 s0 subs0) (h1 : VarStream total1 s1 subs1)
    (hne : ∃ e ∈ subs1, varFits nbits e.2 = true) {x : ℤ} {uses pos : ℕ} {st0 st1 : SnipState} (hs0 : SnipOk x uses pos st0)
    (hs1 : SnipOk x uses pos st1) (coef : ℕ → ℤ) (raw0 raw1 : ℕ → ℕ → ℕ → U64) (ord : Map SnipRow → Map SnipRow) (ho : IsOrder ord) :
    ∃ st0' st1', let o := (ord (admit (varFits nbits) subs1 [])).keys
      let G := varCounted x coef pos nbits subs0 subs1 o
      Always (varOp0 fma std nbits total0 s0 coef raw0 st0) (varOp1 nbits total1 s1 coef raw1 st1 ord)
        (verdict G.card total0 (varAnswer fma std ((∑ k ∈ G, varVal nbits subs0 subs1 0 k) % intModulus : ℕ)
          ((∑ k ∈ G, varVal nbits subs0 subs1 1 k) % intModulus : ℕ) G.card), st0') (.noAns, st1') ∧
      SnipOk x (uses + o.length) (pos + o.length * 2) st0' ∧ SnipOk x (uses + o.length) (pos + o.length * 2) st1' := by
  obtain ⟨st0', st1', h, q⟩ := var_pair fma std hb ht h0 h1 hne hs0 hs1 coef raw0 raw1 ord ho
  exact ⟨st0', st1', h.always, q⟩

/-- A counted key is held by both servers. -/
theorem C40_counted_both {x : ℤ} {coef : ℕ → ℤ} {pos nbits : ℕ} {subs0 subs1 : List (Bytes × SnipRow)} {o : List Bytes} :
    varCounted x coef pos nbits subs0 subs1 o ⊆ bothKeys (varFits nbits) subs0 subs1 := by
  classical exact Finset.filter_subset _ _

/-- C40. A submission held by both servers whose values satisfy the circuit equation and whose packets come from the honest
computation passes at every check point, with all coefficients. -/
theorem C40_honest_passes {nbits : ℕ} {subs0 subs1 : List (Bytes × SnipRow)} {k : Bytes} {r0 r1 : SnipRow}
    (e0 : firstOf (varFits nbits) subs0 k = some r0) (e1 : firstOf (varFits nbits) subs1 k = some r1) {vx vy : ℤ} {w : List ℤ}
    (hev : varCircuit.eval intModulus [vx, vy] = some (w, true))
    (hx : ((recVal (varWidths nbits) r0 r1 0 : ℕ) : ZMod intModulus) = vx)
    (hy : ((recVal (varWidths nbits) r0 r1 1 : ℕ) : ZMod intModulus) = vy) {t : RootTables} {l : List ℕ} (hrc : RootCalls (2 :: l) t)
    {r : SnipRand} (hr : ValidRand intModulus varCircuit r)
    (hpk : sharePolynomials intModulus varCircuit w t r = some (r0.packet, r1.packet)) {x : ℤ} (hxc : Canon x intModulus) {cs : List ℤ}
    (hcs : 2 ≤ cs.length) : Passes varCircuit x (varWidths nbits) (varFits nbits) subs0 subs1 cs k := by
  refine ⟨r0, r1, e0, e1, ?_⟩
  refine accepts_honest (inps := recIn (varWidths nbits) r0 r1) varCircuit_ok.wf hev rfl ?_ hrc hr.lh hr.lm hpk hxc hcs
  intro j hj
  have hj : j < 2 := hj
  have : at0 (recIn (varWidths nbits) r0 r1) j = fmod (recVal (varWidths nbits) r0 r1 j) intModulus := by
    have : j < (varWidths nbits).length := hj
    simp [at0, recIn, List.getD_eq_getElem?_getD, this]
  rw [this, fmod_cast]
  interval_cases j
  · simpa [at0] using hx
  · simpa [at0] using hy

/-- C40, cheating clients: if the square is wrong modulo `p`, then whatever the packets there are at most 4 bad check points, and
at any other the submission passes for exactly `p` of the `p²` pairs of coefficients. -/
theorem C40_cheater {nbits : ℕ} {subs0 subs1 : List (Bytes × SnipRow)} {k : Bytes} {r0 r1 : SnipRow}
    (e0 : firstOf (varFits nbits) subs0 k = some r0) (e1 : firstOf (varFits nbits) subs1 k = some r1)
    (hr0 : SnipRowOk varCircuit 2 r0) (hr1 : SnipRowOk varCircuit 2 r1)
    (hbad : ¬ ((varVal nbits subs0 subs1 1 k : ℕ) : ZMod intModulus) = (varVal nbits subs0 subs1 0 k : ZMod intModulus) ^ 2) :
    ∃ bad : Finset (ZMod intModulus), bad.card ≤ 4 ∧ ∀ x, Canon x intModulus → (x : ZMod intModulus) ∉ bad →
      {cs : List ℤ | cs.length = 2 ∧ (∀ y ∈ cs, IsDraw y intModulus) ∧
        Passes varCircuit x (varWidths nbits) (varFits nbits) subs0 subs1 cs k}.ncard = intModulus := by
  rw [← keyVal_var _ _ _ _ (by omega), ← keyVal_var _ _ _ _ (by omega)] at hbad
  simp only [keyVal, e0, e1] at hbad
  have hin : recIn (varWidths nbits) r0 r1 =
      [fmod (recVal (varWidths nbits) r0 r1 0) intModulus, fmod (recVal (varWidths nbits) r0 r1 1) intModulus] := rfl
  obtain ⟨c, w, b, hc, -, hev, hb⟩ := C26_checkVar (fmod (recVal (varWidths nbits) r0 r1 0) intModulus)
    (fmod (recVal (varWidths nbits) r0 r1 1) intModulus)
  rw [checkVar_eq] at hc; cases hc
  have hbf : b = false := by
    rw [← Bool.not_eq_true, hb]
    simpa using hbad
  subst hbf
  obtain ⟨bad, h1, h2⟩ := accepts_count varCircuit_ok (inps := recIn (varWidths nbits) r0 r1) (w := w) hev (by
    rw [hin]; intro v hv
    simp only [List.mem_cons, List.not_mem_nil, or_false] at hv
    rcases hv with rfl | rfl <;> exact fmod_canon _) hr0.pk hr1.pk
  refine ⟨bad, h1, fun x hx hxb => ?_⟩
  have := h2 x hx hxb
  have ep : intModulus ^ varCircuit.resultZero.length = intModulus := pow_one _
  rw [ep] at this
  refine Eq.trans ?_ this
  congr 1
  ext cs
  simp only [Set.mem_ofPred_eq]
  refine and_congr_right fun _ => and_congr_right fun _ => ?_
  constructor
  · rintro ⟨a0, a1, f0, f1, h⟩
    rw [e0] at f0; cases f0
    rw [e1] at f1; cases f1
    exact h
  · exact fun h => ⟨r0, r1, e0, e1, h⟩

/-! ## C40: the answer is the population variance -/

/-- The population variance of `f` over the keys `G`. -/
noncomputable def popVar (G : Finset Bytes) (f : Bytes → ℕ) : ℝ :=
  (∑ k ∈ G, ((f k : ℝ) - (∑ k ∈ G, (f k : ℝ)) / G.card) ^ 2) / G.card

theorem popVar_nonneg (G : Finset Bytes) (f : Bytes → ℕ) : 0 ≤ popVar G f :=
  div_nonneg (Finset.sum_nonneg fun _ _ => sq_nonneg _) (Nat.cast_nonneg _)

theorem popVar_eq {G : Finset Bytes} (hG : G.Nonempty) (f : Bytes → ℕ) :
    (∑ k ∈ G, (f k : ℝ) ^ 2) / G.card - ((∑ k ∈ G, (f k : ℝ)) / G.card) * ((∑ k ∈ G, (f k : ℝ)) / G.card) = popVar G f := by
  have hc : (G.card : ℝ) ≠ 0 := by exact_mod_cast hG.card_ne_zero
  unfold popVar
  set S := ∑ k ∈ G, (f k : ℝ) with hS
  have : ∑ k ∈ G, ((f k : ℝ) - S / G.card) ^ 2 = ∑ k ∈ G, (f k : ℝ) ^ 2 - 2 * (S / G.card) * S + G.card * (S / G.card) ^ 2 := by
    simp only [sub_sq]
    rw [Finset.sum_add_distrib, Finset.sum_sub_distrib, Finset.sum_const, nsmul_eq_mul, hS, Finset.mul_sum]
    congr 2
    exact Finset.sum_congr rfl fun _ _ => by ring
  rw [this]
  field_simp
  ring

/-- C40. If every counted square is the square of its value and the sum of squares is below `p`, the answer of VAR is, up to rounding, the
population variance of the counted values, and that of STDDEV its root. It is never negative or not a number, and zero only if all counted
values are equal. -/
theorem C40_population_variance (fma std : Bool) {G : Finset Bytes} (hG : G.Nonempty) (hc : G.card < 2 ^ 53) {vx vy : Bytes → ℕ}
    (hsq : ∀ k ∈ G, vy k = vx k ^ 2) (hp : ∑ k ∈ G, vy k < intModulus) :
    ∃ a, varAnswer fma std ((∑ k ∈ G, vx k) % intModulus : ℕ) ((∑ k ∈ G, vy k) % intModulus : ℕ) G.card = some a ∧
      NearVar std (popVar G vx) ((∑ k ∈ G, (vx k : ℝ) ^ 2) / G.card) (∀ i ∈ G, ∀ j ∈ G, vx i = vx j) a := by
  have hle : ∑ k ∈ G, vx k ≤ ∑ k ∈ G, vy k := Finset.sum_le_sum fun k hk => by
    rw [hsq k hk]; exact Nat.le_self_pow (by norm_num) _
  have hp48 : intModulus ≤ 2 ^ 48 := by decide
  rw [Nat.mod_eq_of_lt hp, Nat.mod_eq_of_lt (by omega), Finset.sum_congr rfl hsq]
  rw [Finset.sum_congr rfl hsq] at hp
  set l := G.toList.map vx with hl
  have e0 : l.length = G.card := by rw [hl, List.length_map, Finset.length_toList]
  have e1 : l.sum = ∑ k ∈ G, vx k := by rw [hl, Finset.sum_map_toList]
  have e2 : (l.map fun v => v ^ 2).sum = ∑ k ∈ G, vx k ^ 2 := by
    rw [hl, List.map_map, ← Finset.sum_map_toList]; rfl
  obtain ⟨a, ha, hn⟩ := varAnswer_near fma std (l := l) (by
    intro h; rw [h, List.length_nil] at e0; exact hG.card_ne_zero e0.symm) (by omega) (by rw [e2]; omega)
  refine ⟨a, by rw [← e0, ← e1, ← e2]; exact ha, ?_⟩
  have f1 : listVar l = popVar G vx := by
    unfold listVar popVar
    rw [e0, e1, hl, List.map_map, Nat.cast_sum, ← Finset.sum_map_toList G (fun k => ((vx k : ℝ) - (∑ x ∈ G, (vx x : ℝ)) / G.card) ^ 2)]; rfl
  have f2 : meanSq l = (∑ k ∈ G, (vx k : ℝ) ^ 2) / G.card := by
    unfold meanSq
    rw [e0, hl, List.map_map, ← Finset.sum_map_toList]; rfl
  have f3 : (∀ u ∈ l, ∀ v ∈ l, u = v) ↔ ∀ i ∈ G, ∀ j ∈ G, vx i = vx j := by
    simp [hl]
  rw [f1, f2, f3] at hn
  exact hn

/-- Non-vacuity: the values 1 and 3 have mean 2 and variance 1. -/
example : ∃ (G : Finset Bytes) (vx : Bytes → ℕ), G.Nonempty ∧ ∑ k ∈ G, vx k ^ 2 < intModulus ∧ popVar G vx = 1 := by
  refine ⟨{[1#8], [2#8]}, fun k => if k = [1#8] then 1 else 3, ⟨[1#8], by simp⟩, by decide, ?_⟩
  have h : ([1#8] : Bytes) ≠ [2#8] := by decide
  have hc : ({[1#8], [2#8]} : Finset Bytes).card = 2 := Finset.card_pair h
  unfold popVar
  rw [hc, Finset.sum_pair h, Finset.sum_pair h]
  simp only [if_pos, if_neg h.symm]
  norm_num

/-! ## C41 -/

/-- C41. Up to 23 bits a square in range that is right modulo `p` is right. -/
theorem C41_exact {nbits x y : ℕ} (hb : nbits ≤ 23) (hx : x < 2 ^ nbits) (hy : y < 2 ^ (2 * nbits))
    (h : (y : ZMod intModulus) = (x : ZMod intModulus) ^ 2) : y = x ^ 2 := by
  have hp : 2 ^ (2 * nbits) ≤ intModulus := (Nat.pow_le_pow_right (by norm_num) (by omega : 2 * nbits ≤ 46)).trans (by decide)
  have hx2 : x ^ 2 < 2 ^ (2 * nbits) := by
    rw [mul_comm 2 nbits, pow_mul]; exact Nat.pow_lt_pow_left hx (by norm_num)
  have : ((x ^ 2 : ℕ) : ZMod intModulus) = (y : ZMod intModulus) := by push_cast; exact h.symm
  rw [ZMod.natCast_eq_natCast_iff', Nat.mod_eq_of_lt (by omega), Nat.mod_eq_of_lt (by omega)] at this
  exact this.symm

/-- C41 for the operation: with at most 23 bits, a submission held by both servers that is right modulo `p` has an exact square. -/
theorem C41_counted {nbits : ℕ} (hb : nbits ≤ 23) (subs0 subs1 : List (Bytes × SnipRow)) (k : Bytes)
    (h : ((varVal nbits subs0 subs1 1 k : ℕ) : ZMod intModulus) = (varVal nbits subs0 subs1 0 k : ZMod intModulus) ^ 2) :
    varVal nbits subs0 subs1 1 k = varVal nbits subs0 subs1 0 k ^ 2 :=
  C41_exact hb (C49_var_vals nbits subs0 subs1 k).1 (C49_var_vals nbits subs0 subs1 k).2 h

/-- C41, the limit: at every width from 24 bits the value 0 with the square `p` is in range and right modulo `p`. -/
theorem C41_false_from_24 {nbits : ℕ} (hb : 24 ≤ nbits) : (0 : ℕ) < 2 ^ nbits ∧ intModulus < 2 ^ (2 * nbits) ∧
    ((intModulus : ℕ) : ZMod intModulus) = ((0 : ℕ) : ZMod intModulus) ^ 2 ∧ intModulus ≠ 0 ^ 2 := by
  refine ⟨pow_pos (by norm_num) _, ?_, by simp, by decide⟩
  exact lt_of_lt_of_le (by decide) (Nat.pow_le_pow_right (by norm_num) (by omega : 48 ≤ 2 * nbits))

/-- Non-vacuity of C41: 3 and 9 at 2 bits. -/
example : (9 : ℕ) < 2 ^ (2 * 2) ∧ ((9 : ℕ) : ZMod intModulus) = ((3 : ℕ) : ZMod intModulus) ^ 2 := by
  refine ⟨by norm_num, ?_⟩
  push_cast; ring

/-! ## C33 -/

/-- C33. `validate_snips` returns the same verdicts at both servers, for any packets (of the sizes with which they are read) and
any shares. -/
theorem C33_same_verdicts {c : Circuit} (hc : CircOk c) {x : ℤ} {uses pos : ℕ} {st0 st1 : SnipState} (h0 : SnipOk x uses pos st0)
    (h1 : SnipOk x uses pos st1) (coef : ℕ → ℤ) {ni : ℕ} (hni : nIn c.gates ≤ ni) {pks0 pks1 : List Packet} {n : ℕ} (hn : 0 < n)
    (hl0 : pks0.length = n) (hl1 : pks1.length = n) (hp0 : ∀ k ∈ pks0, PacketOk c k) (hp1 : ∀ k ∈ pks1, PacketOk c k)
    {sh0 sh1 : List ℤ} (hs0 : sh0.length = n * ni) (hs1 : sh1.length = n * ni) :
    ∃ vs st0' st1', vs.length = n ∧
      Always (validateSnips false c coef st0 ni pks0 sh0) (validateSnips true c coef st1 ni pks1 sh1) (vs, st0') (vs, st1') := by
  obtain ⟨vs, st0', st1', h, -, -, hl, -⟩ := validate_pair hc h0 h1 coef hni hn hl0 hl1 hp0 hp1 hs0 hs1
  exact ⟨vs, st0', st1', hl, h.always⟩

/-- C33 for the operations: both servers accumulate their shares with the same validity vector `V`, which marks exactly the
counted keys, and server 0's count is the number of its true entries. -/
theorem C33_same_accumulation {c : Circuit} (hc : CircOk c) {x : ℤ} {uses pos : ℕ} {st0 st1 : SnipState} (h0 : SnipOk x uses pos st0)
    (h1 : SnipOk x uses pos st1) (coef : ℕ → ℤ) {ws : List ℕ} (hni : nIn c.gates ≤ ws.length) (hw : ∀ w ∈ ws, w ≤ 48)
    (raw0 raw1 : ℕ → ℕ → ℕ → U64) (junk : ℕ → List U64) (hj : ∀ i, (junk i).length = ws.length) (ok : SnipRow → Bool)
    (subs0 subs1 : List (Bytes × SnipRow)) (hk1 : Keyed subs1) (hr0 : ∀ e ∈ subs0, SnipRowOk c ws.length e.2)
    (hr1 : ∀ e ∈ subs1, SnipRowOk c ws.length e.2) (hlen : subs1.length < 2 ^ 32) (o : Map SnipRow) (hp : o.Perm (admit ok subs1 []))
    (hne : 0 < o.length) :
    ∃ (V : List Bool) (sh0 sh1 : List ℤ) (n : ℕ) (st0' st1' : SnipState), V.length = o.length ∧
      Always (snipOp0 c coef ws raw0 junk st0 (admit ok subs0 [])) (snipOp1 c coef ws raw1 st1 (admit ok subs1 []) o)
        (accumulate ws.length (pieces ws.length o.length sh0) V, n, st0')
        (accumulate ws.length (pieces ws.length o.length sh1) V, st1') ∧
      n = (passing c x coef pos ws ok subs0 subs1 o.keys).card ∧
      ∀ i (hi : i < o.length), (V.getD i false = true ↔ o[i].1 ∈ passing c x coef pos ws ok subs0 subs1 o.keys) := by
  obtain ⟨a, b, st0', st1', h, -, -, -, -, -, -, -, V, s0, s1, e0, e1, hl, hV⟩ :=
    snipOp_pair hc h0 h1 coef hni hw raw0 raw1 junk hj ok subs0 subs1 hk1 hr0 hr1 hlen o hp hne
  rw [e0, e1] at h
  exact ⟨V, s0, s1, _, st0', st1', hl, h.always, rfl, hV⟩

/-- The states of freshly started servers meet the hypotheses (`randomX` = 5, no draws made). -/
theorem fresh_ok {t : RootTables} (ht : RootCalls [] t) : SnipOk 5 0 0 ⟨t, [], 5, 0, 0⟩ :=
  ⟨rfl, by simp only [Canon]; decide, rfl, rfl, ⟨[], ht⟩, by simp⟩

/-- Non-vacuity of C33 and C40: two dishonest submissions with arbitrary packets. -/
example : ∃ (st : SnipState) (k1 k2 : Bytes) (r : SnipRow), SnipOk 5 0 0 st ∧ Keyed [(k1, r), (k2, r)] ∧ SnipRowOk varCircuit 2 r ∧
    varFits 4 r = true :=
  ⟨_, List.replicate 32 1#8, List.replicate 32 2#8, ⟨[3#64, 200#64], ⟨[7], 1, 2, 3, [4, 5], ⟨1, 1, 1⟩⟩⟩, fresh_ok .start,
    by unfold Keyed; decide, ⟨rfl, ⟨rfl, rfl⟩⟩, by decide⟩

/-! ## C48 -/

/-- C48 for VAR and STDDEV: an invalid batch is reported iff twice the number of counted keys is below the announced number. -/
theorem C48_var (fma std : Bool) {nbits : ℕ} (hb : nbits ≤ 24) {total0 total1 : ℕ} (ht : total1 < 2 ^ 32) {s0 s1 : Bytes}
    {subs0 subs1 : List (Bytes × SnipRow)} (h0 : VarStream total0 s0 subs0) (h1 : VarStream total1 s1 subs1)
    (hne : ∃ e ∈ subs1, varFits nbits e.2 = true) {x : ℤ} {uses pos : ℕ} {st0 st1 : SnipState} (hs0 : SnipOk x uses pos st0)
    (hs1 : SnipOk x uses pos st1) (coef : ℕ → ℤ) (raw0 raw1 : ℕ → ℕ → ℕ → U64) (ord : Map SnipRow → Map SnipRow) (ho : IsOrder ord) :
    ∃ r st0' st1', Always (varOp0 fma std nbits total0 s0 coef raw0 st0) (varOp1 nbits total1 s1 coef raw1 st1 ord) (r, st0') (.noAns, st1') ∧
      (r = .invalid ↔ 2 * (varCounted x coef pos nbits subs0 subs1 (ord (admit (varFits nbits) subs1 [])).keys).card < total0) := by
  obtain ⟨st0', st1', h, -⟩ := C40_var_op fma std hb ht h0 h1 hne hs0 hs1 coef raw0 raw1 ord ho
  refine ⟨_, st0', st1', h, ?_⟩
  unfold verdict
  split_ifs with hv <;> simp [hv]

/-! ## C56 -/

theorem shareConvert_empty (raw0 raw1 : ℕ → ℕ → ℕ → U64) (ws : List ℕ) :
    Pair (shareConvert intModulus false raw0 0 ws.length ws []) (shareConvert intModulus true raw1 0 ws.length ws []) [] [] := by
  unfold shareConvert intsumSender intsumReceiver
  simp only [List.length_nil, zero_mul, ne_eq, not_true_eq_false, or_self, if_false, Bool.false_eq_true, if_true, pieces,
    List.zipIdx_nil, List.map_nil, List.all_nil, List.flatMap_nil]
  have h : Pair ((Proc.otPut false []).bind fun _ => Proc.ret ([] : List (List U64)))
      ((Proc.otGet false []).bind fun r => Proc.ret (recvRows (BitVec.ofNat 64 intModulus) ws 0 r)) [] [] :=
    (Pair.ot01 false [] [] rfl).bind (Pair.ret _ _)
  exact h.bind (Pair.ret _ _)

theorem snipOp_empty (c : Circuit) (coef : ℕ → ℤ) (ws : List ℕ) (raw0 raw1 : ℕ → ℕ → ℕ → U64) (junk : ℕ → List U64) (st0 st1 : SnipState)
    (m0 : Map SnipRow) : Leads (snipOp0 c coef ws raw0 junk st0 m0) (snipOp1 c coef ws raw1 st1 [] []) .fault .fault := by
  unfold snipOp0 snipOp1
  refine (Leads.ofPair (listen_pair [] (by simp) (by simp)) _ _).trans ?_
  exact (Leads.ofPair (shareConvert_empty raw0 raw1 ws) _ _).trans (Leads.refl _ _)

theorem Leads.bindFault {α β γ δ : Type} {P0 : Proc α} {P1 : Proc β} (h : Leads P0 P1 .fault .fault) (f : α → Proc γ) (g : β → Proc δ) :
    Leads (P0.bind f) (P1.bind g) .fault .fault := by
  intro γ' δ' k0 k1
  rw [Proc.bind_assoc, Proc.bind_assoc]
  exact h _ _ _ _

/-- C56 is false of VAR and STDDEV: if server 1 admits no submission, server 0 (and server 1) read the first circuit of an empty
array, in every schedule. -/
theorem C56_false_var_empty (fma std : Bool) {nbits : ℕ} (hb : nbits < 64) {total0 total1 : ℕ} {s0 s1 : Bytes}
    {subs0 subs1 : List (Bytes × SnipRow)} (h0 : VarStream total0 s0 subs0) (h1 : VarStream total1 s1 subs1)
    (hne : ∀ e ∈ subs1, varOk (1#64 <<< nbits) e.2 = false) (st0 st1 : SnipState)
    (coef : ℕ → ℤ) (raw0 raw1 : ℕ → ℕ → ℕ → U64) (ord : Map SnipRow → Map SnipRow) (ho : IsOrder ord) :
    Crashes0 (varOp0 fma std nbits total0 s0 coef raw0 st0) (varOp1 nbits total1 s1 coef raw1 st1 ord) := by
  apply Crashes0.ofLeads'
  obtain ⟨rest0, h0⟩ := h0
  obtain ⟨rest1, h1⟩ := h1
  have hm : varCircuit.mulGates.length = 1 := rfl
  have i0 : varIntake 1 nbits total0 s0 = some (admit (varOk (1#64 <<< nbits)) subs0 []) := by
    unfold varIntake maxVal
    rw [if_pos hb, Option.bind_some, h0, Option.map_some]
  have i1 : varIntake 1 nbits total1 s1 = some [] := by
    unfold varIntake maxVal
    rw [if_pos hb, Option.bind_some, h1, Option.map_some, admit_none hne]
  have ho : ord [] = [] := List.perm_nil.1 (ho [])
  unfold varOp0 varOp1
  simp only [checkVar_eq, Proc.ofOption, Proc.bind, hm, i0, i1, ho]
  exact (snipOp_empty _ _ _ _ _ _ _ _ _).bindFault _ _

/-- From 32 to 63 bits the range test refuses everything, so every run of VAR or STDDEV ends this way. -/
theorem C56_false_var_wide (fma std : Bool) {nbits : ℕ} (hb : 32 ≤ nbits) (hb' : nbits < 64) {total0 total1 : ℕ} {s0 s1 : Bytes}
    {subs0 subs1 : List (Bytes × SnipRow)} (h0 : VarStream total0 s0 subs0) (h1 : VarStream total1 s1 subs1) (st0 st1 : SnipState)
    (coef : ℕ → ℤ) (raw0 raw1 : ℕ → ℕ → ℕ → U64) (ord : Map SnipRow → Map SnipRow) (ho : IsOrder ord) :
    Crashes0 (varOp0 fma std nbits total0 s0 coef raw0 st0) (varOp1 nbits total1 s1 coef raw1 st1 ord) :=
  C56_false_var_empty fma std hb' h0 h1 (fun e _ => C49_var_wrap hb hb' e.2) st0 st1 coef raw0 raw1 ord ho

/-- Concrete witness: no submissions at all. -/
example : VarStream 0 [] [] := ⟨[], rfl⟩

/-- C56, what holds: BIT_SUM with nothing admitted at server 1 ends in every schedule; server 0 reports an invalid batch unless it
expected none. -/
theorem C56_bit_sum_partial (subs0 : List (Bytes × Bool)) (rest0 rest1 : Bytes) (hk0 : Keyed subs0) (ord : Map Bool → Map Bool)
    (ho : IsOrder ord) (junk : ℕ → Bool) (raw : ℕ → U64) :
    Always (bitSumOp0 subs0.length (encBitShares subs0 ++ rest0) junk raw) (bitSumOp1 0 rest1 ord)
      (if subs0 = [] then .ans 0#64 else .invalid) .noAns := by
  have h := C35_bit_sum subs0 [] rest0 rest1 hk0 (by intro e he; cases he) (by simp) ord ho junk raw
  have hb : bothKeys (fun _ => true) subs0 ([] : List (Bytes × Bool)) = ∅ := by
    ext k; simp [bothKeys, firstOf]
  have he : encBitShares [] ++ rest1 = rest1 := rfl
  simp only [bitCount, hb, Finset.card_empty, verdict, he] at h
  cases subs0 with
  | nil => simpa using h
  | cons e l => simpa using h

/-- C56, what holds: INT_SUM, also if submissions arrive at server 1 but none is in range. -/
theorem C56_int_sum_partial (nbits : ℕ) (hb : nbits < 64) (subs0 subs1 : List (Bytes × U64)) (rest0 rest1 : Bytes) (hk0 : Keyed subs0)
    (hk1 : Keyed subs1) (hlen : subs1.length < 2 ^ 32) (hno : ∀ e ∈ subs1, 2 ^ nbits ≤ e.2.toNat) (ord : Map U64 → Map U64)
    (ho : IsOrder ord) (junk : ℕ → U64) (raw : ℕ → ℕ → ℕ → U64) :
    Always (intSumOp0 nbits subs0.length (encIntShares subs0 ++ rest0) junk raw)
      (intSumOp1 nbits subs1.length (encIntShares subs1 ++ rest1) ord) (if subs0 = [] then .ans 0#64 else .invalid) .noAns := by
  have h := C36_int_sum nbits hb subs0 subs1 rest0 rest1 hk0 hk1 hlen ord ho junk raw
  have hf : ∀ k, firstOf (belowBits nbits) subs1 k = none := by
    intro k
    unfold firstOf
    rw [Option.map_eq_none_iff, List.find?_eq_none]
    intro e he
    have := hno e he
    simp [belowBits]; intro _; omega
  have hb : bothKeys (belowBits nbits) subs0 subs1 = ∅ := by
    ext k; simp [bothKeys, hf]
  simp only [hb, Finset.card_empty, Finset.sum_empty, verdict] at h
  cases subs0 with
  | nil => simpa using h
  | cons e l => simpa using h

/-- C56, what holds: AND and OR. -/
theorem C56_xor_partial (isAnd : Bool) (subs0 : List (Bytes × U64)) (rest0 rest1 : Bytes) (hk0 : Keyed subs0)
    (ord : Map U64 → Map U64) (ho : IsOrder ord) :
    Always (xorOpOp0 isAnd subs0.length (encIntShares subs0 ++ rest0)) (xorOpOp1 0 rest1 ord)
      (if subs0 = [] then .ans isAnd else .invalid) .noAns := by
  have h := C37_xor_op isAnd subs0 [] rest0 rest1 hk0 (by intro e he; cases he) (by simp) ord ho
  have hb : bothKeys (fun _ => true) subs0 ([] : List (Bytes × U64)) = ∅ := by
    ext k; simp [bothKeys, firstOf]
  have he : encIntShares [] ++ rest1 = rest1 := rfl
  have hx : xorAgg subs0 [] = 0#64 := by simp [xorAgg, hb, xorOver]
  simp only [hb, Finset.card_empty, verdict, he, hx] at h
  cases subs0 with
  | nil => cases isAnd <;> simpa using h
  | cons e l => simpa using h

/-! ## C40: honest clients -/

/-- An honest client of VAR or STDDEV: key and draws (client.cpp:773-809). -/
structure VarClient where
  pk : Bytes
  rawReal : U64
  rawShare : U64
  rawShare2 : U64
  rand : SnipRand

/-- The value of a client. -/
def VarClient.value (nbits : ℕ) (c : VarClient) : ℕ := c.rawReal.toNat % 2 ^ nbits

/-- What a client computes. -/
def VarClient.out (nbits : ℕ) (t : RootTables) (c : VarClient) : Option (U64 × SnipRow × SnipRow) :=
  clientVar nbits c.rawReal c.rawShare c.rawShare2 t c.rand

theorem mod_shl {nbits : ℕ} (h : nbits < 64) (a : U64) : (a % (1#64 <<< nbits)).toNat = a.toNat % 2 ^ nbits := by
  rw [BitVec.toNat_umod, shl_toNat h]

/-- An honest client always gets its shares done, both are in range, they reconstruct to the value and its square, and the
packets come from an accepting evaluation. -/
theorem clientVar_spec {nbits : ℕ} (hb : nbits ≤ 31) {t : RootTables} {l : List ℕ} (hrc : RootCalls (2 :: l) t) (c : VarClient)
    (hr : ValidRand intModulus varCircuit c.rand) : ∃ real r0 r1 w, c.out nbits t = some (real, r0, r1) ∧
      real.toNat = c.value nbits ∧ varFits nbits r0 = true ∧ varFits nbits r1 = true ∧ r0.vals.length = 2 ∧ r1.vals.length = 2 ∧
      (r0.vals.getD 0 0#64 ^^^ r1.vals.getD 0 0#64).toNat = c.value nbits ∧
      (r0.vals.getD 1 0#64 ^^^ r1.vals.getD 1 0#64).toNat = c.value nbits ^ 2 ∧
      varCircuit.eval intModulus [(c.value nbits : ℤ), ((c.value nbits ^ 2 : ℕ) : ℤ)] = some (w, true) ∧
      sharePolynomials intModulus varCircuit w t c.rand = some (r0.packet, r1.packet) := by
  set mx : U64 := 1#64 <<< nbits with hmx
  have hm : mx.toNat = 2 ^ nbits := shl_toNat (by omega)
  have hmm : (mx * mx).toNat = 2 ^ (2 * nbits) := by
    rw [BitVec.toNat_mul, hm, ← pow_add, ← two_mul, Nat.mod_eq_of_lt]
    exact Nat.pow_lt_pow_right (by omega) (by omega)
  have h31 : (2 : ℕ) ^ nbits ≤ 2 ^ 31 := Nat.pow_le_pow_right (by norm_num) hb
  have h62 : (2 : ℕ) ^ (2 * nbits) ≤ 2 ^ 62 := Nat.pow_le_pow_right (by norm_num) (by omega)
  have hv : c.value nbits < 2 ^ nbits := Nat.mod_lt _ (pow_pos (by norm_num) _)
  have hv2 : c.value nbits ^ 2 < 2 ^ (2 * nbits) := by
    rw [mul_comm 2 nbits, pow_mul]; exact Nat.pow_lt_pow_left hv (by norm_num)
  set real := c.rawReal % mx with hreal
  have hrv : real.toNat = c.value nbits := mod_shl (by omega) _
  have hsq : (real * real).toNat = c.value nbits ^ 2 := by
    rw [BitVec.toNat_mul, hrv, ← pow_two, Nat.mod_eq_of_lt (by omega)]
  have t1 : real.toInt = (c.value nbits : ℤ) := by
    rw [BitVec.toInt_eq_toNat_of_lt (by rw [hrv]; omega), hrv]
  have t2 : (real * real).toInt = ((c.value nbits ^ 2 : ℕ) : ℤ) := by
    rw [BitVec.toInt_eq_toNat_of_lt (by rw [hsq]; omega), hsq]
  obtain ⟨c', w, b, hc, -, hev, hbv⟩ := C26_checkVar (c.value nbits : ℤ) ((c.value nbits ^ 2 : ℕ) : ℤ)
  rw [checkVar_eq] at hc; cases hc
  have : b = true := by rw [hbv]; push_cast; rfl
  subst this
  obtain ⟨pk0, pk1, -, -, -, -, -, hpk, -⟩ := C30_accept varCircuit_ok.wf hev (i0 := [(c.value nbits : ℤ), ((c.value nbits ^ 2 : ℕ) : ℤ)])
    (i1 := [0, 0]) rfl rfl (by
      intro k hk
      have hk : k < 2 := hk
      interval_cases k <;> simp [at0]) hrc hrc hr.lh hr.lm (x := 0) (by simp only [Canon]; decide) (cs := [0, 0]) (by decide)
  refine ⟨real, ⟨[c.rawShare % mx, c.rawShare2 % (mx * mx)], pk0⟩,
    ⟨[(c.rawShare % mx) ^^^ real, (c.rawShare2 % (mx * mx)) ^^^ (real * real)], pk1⟩, w, ?_, hrv, ?_, ?_, rfl, rfl, ?_, ?_, hev, hpk⟩
  · simp only [VarClient.out, clientVar, checkVar_eq, Option.bind_some, ← hmx, ← hreal, t1, t2, hev, hpk, Option.map_some]
  · have a1 : (c.rawShare % mx).toNat < 2 ^ nbits := by
      rw [BitVec.toNat_umod, hm]; exact Nat.mod_lt _ (pow_pos (by norm_num) _)
    have a2 : (c.rawShare2 % (mx * mx)).toNat < 2 ^ (2 * nbits) := by
      rw [BitVec.toNat_umod, hmm]; exact Nat.mod_lt _ (pow_pos (by norm_num) _)
    simp only [varFits, List.getD_cons_zero, List.getD_cons_succ, a1, a2, decide_true, Bool.and_self]
  · have a1 : ((c.rawShare % mx) ^^^ real).toNat < 2 ^ nbits := by
      rw [BitVec.toNat_xor]
      refine Nat.xor_lt_two_pow ?_ (by omega)
      rw [BitVec.toNat_umod, hm]; exact Nat.mod_lt _ (pow_pos (by norm_num) _)
    have a2 : ((c.rawShare2 % (mx * mx)) ^^^ (real * real)).toNat < 2 ^ (2 * nbits) := by
      rw [BitVec.toNat_xor]
      refine Nat.xor_lt_two_pow ?_ (by omega)
      rw [BitVec.toNat_umod, hmm]; exact Nat.mod_lt _ (pow_pos (by norm_num) _)
    simp only [varFits, List.getD_cons_zero, List.getD_cons_succ, a1, a2, decide_true, Bool.and_self]
  · simp only [List.getD_cons_zero]
    rw [← BitVec.xor_assoc, BitVec.xor_self, BitVec.zero_xor, hrv]
  · simp only [List.getD_cons_succ, List.getD_cons_zero]
    rw [← BitVec.xor_assoc, BitVec.xor_self, BitVec.zero_xor, hsq]

/-- An honest batch: distinct keys, and each server's submissions are those of the clients, in any order. -/
structure HonestVar (nbits : ℕ) (t : RootTables) (cs : List VarClient) (subs0 subs1 : List (Bytes × SnipRow)) : Prop where
  tabs : ∃ l, RootCalls (2 :: l) t
  distinct : (cs.map (·.pk)).Nodup
  keys : ∀ c ∈ cs, c.pk.length = pkLength
  draws : ∀ c ∈ cs, ValidRand intModulus varCircuit c.rand
  subs0 : (subs0.map some).Perm (cs.map fun c => (c.out nbits t).map fun o => (c.pk, o.2.1))
  subs1 : (subs1.map some).Perm (cs.map fun c => (c.out nbits t).map fun o => (c.pk, o.2.2))

theorem perm_of_some {α : Type} {l l' : List α} (h : (l.map some).Perm (l'.map some)) : l.Perm l' := by
  have := h.filterMap id
  rwa [List.filterMap_map, List.filterMap_map, Function.id_comp, List.filterMap_some, List.filterMap_some] at this

theorem optAll_map {α β : Type} {f : α → Option β} {g : α → β} {l : List α} (h : ∀ a ∈ l, f a = some (g a)) :
    optAll (l.map f) = some (l.map g) := by
  induction l with
  | nil => rfl
  | cons a l ih =>
    rw [List.map_cons, h a (List.mem_cons_self ..), optAll, ih fun b hb => h b (List.mem_cons_of_mem _ hb)]; rfl

theorem var_stream {subs : List (Bytes × SnipRow)} (h : ∀ e ∈ subs, e.1.length = pkLength ∧ e.2.vals.length = 2 ∧
    PacketOk varCircuit e.2.packet ∧ ∀ y ∈ e.2.packet.all, Fits y) :
    ∃ bs, encVarShares subs = some bs ∧ Reads ((rdVarShare 1).rep subs.length) bs subs := by
  have he : ∀ e ∈ subs, encVarShare e = some (e.1 ++ encWords e.2.vals ++ (encPacket e.2.packet).getD []) ∧
      Reads (rdVarShare 1) (e.1 ++ encWords e.2.vals ++ (encPacket e.2.packet).getD []) e := by
    intro e hm
    obtain ⟨a1, a2, a3, a4⟩ := h e hm
    have hm1 : e.2.packet.mulShares.length = 1 := a3.m
    obtain ⟨bs, hbs, -, hrd⟩ := C14_packet_roundtrip e.2.packet a4 (by rw [hm1]; exact a3.h)
    rw [hm1] at hrd
    rw [encVarShare, hbs]
    refine ⟨rfl, ?_⟩
    unfold rdVarShare
    rw [List.append_assoc]
    refine Reads.bind' (r := .get pkLength .ret)
      (f := fun pk => (rdWords 2).bind fun vs => (rdPacket 1).bind fun k => .ret (pk, (⟨vs, k⟩ : SnipRow)))
      (Reads.getRet (k := id) a1) ?_ rfl
    rw [← a2]
    exact (reads_words e.2.vals).bind (Reads.bindRet (f := fun k => (e.1, (⟨e.2.vals, k⟩ : SnipRow))) hrd)
  refine ⟨_, by rw [encVarShares, optAll_map fun e hm => (he e hm).1]; rfl, ?_⟩
  clear h
  induction subs with
  | nil => exact Reads.ret _
  | cons e subs ih =>
    rw [List.length_cons, Rd.rep, List.map_cons, List.flatten_cons]
    exact (he e (List.mem_cons_self ..)).2.bind (Reads.bindRet (f := fun as => e :: as)
      (ih fun e hm => he e (List.mem_cons_of_mem _ hm)))

theorem verdict_full {α : Type} (n : ℕ) (a : α) : verdict n n a = .ans a := by
  unfold verdict; rw [if_neg (by omega)]

/-- Honest clients, whatever their values: the answer is computed from the sums modulo `p`. -/
theorem var_honest_run (fma std : Bool) {nbits : ℕ} (hb : nbits ≤ 24) {t : RootTables} {cs : List VarClient} (hne : cs ≠ [])
    (hlen : cs.length < 2 ^ 32) {subs0 subs1 : List (Bytes × SnipRow)} (hh : HonestVar nbits t cs subs0 subs1)
    {o : Option ℝ} (ha : varAnswer fma std ((cs.map (·.value nbits)).sum % intModulus : ℕ)
      (((cs.map (·.value nbits)).map fun v => v ^ 2).sum % intModulus : ℕ) (cs.map (·.value nbits)).length = o) :
    ∃ bs0 bs1, encVarShares subs0 = some bs0 ∧ encVarShares subs1 = some bs1 ∧
    ∀ (rest0 rest1 : Bytes) {x : ℤ} {uses pos : ℕ} {st0 st1 : SnipState} (_ : SnipOk x uses pos st0) (_ : SnipOk x uses pos st1)
      (coef : ℕ → ℤ) (raw0 raw1 : ℕ → ℕ → ℕ → U64) (ord : Map SnipRow → Map SnipRow) (_ : IsOrder ord),
    ∃ st0' st1', Always (varOp0 fma std nbits cs.length (bs0 ++ rest0) coef raw0 st0) (varOp1 nbits cs.length (bs1 ++ rest1) coef raw1 st1 ord)
      (.ans o, st0') (.noAns, st1') := by
  obtain ⟨l, hrc⟩ := hh.tabs
  -- the rows as functions of the client
  have hspec := fun c hc => clientVar_spec (by omega : nbits ≤ 31) hrc c (hh.draws c hc)
  set f0 : VarClient → SnipRow := fun c => ((c.out nbits t).map (·.2.1)).getD ⟨[], zeroPacket 0⟩ with hf0
  set f1 : VarClient → SnipRow := fun c => ((c.out nbits t).map (·.2.2)).getD ⟨[], zeroPacket 0⟩ with hf1
  have p0 : subs0.Perm (cs.map fun c => (c.pk, f0 c)) := by
    apply perm_of_some
    refine hh.subs0.trans (List.Perm.of_eq ?_)
    rw [List.map_map]
    refine List.map_congr_left fun c hc => ?_
    obtain ⟨real, r0, r1, w, e, -⟩ := hspec c hc
    simp [hf0, e]
  have p1 : subs1.Perm (cs.map fun c => (c.pk, f1 c)) := by
    apply perm_of_some
    refine hh.subs1.trans (List.Perm.of_eq ?_)
    rw [List.map_map]
    refine List.map_congr_left fun c hc => ?_
    obtain ⟨real, r0, r1, w, e, -⟩ := hspec c hc
    simp [hf1, e]
  have hrow : ∀ c ∈ cs, ∃ w, varFits nbits (f0 c) = true ∧ varFits nbits (f1 c) = true ∧ (f0 c).vals.length = 2 ∧ (f1 c).vals.length = 2 ∧
      ((f0 c).vals.getD 0 0#64 ^^^ (f1 c).vals.getD 0 0#64).toNat = c.value nbits ∧
      ((f0 c).vals.getD 1 0#64 ^^^ (f1 c).vals.getD 1 0#64).toNat = c.value nbits ^ 2 ∧
      varCircuit.eval intModulus [(c.value nbits : ℤ), ((c.value nbits ^ 2 : ℕ) : ℤ)] = some (w, true) ∧
      sharePolynomials intModulus varCircuit w t c.rand = some ((f0 c).packet, (f1 c).packet) := by
    intro c hc
    obtain ⟨real, r0, r1, w, e, -, h⟩ := hspec c hc
    refine ⟨w, ?_⟩
    simpa only [hf0, hf1, e, Option.map_some, Option.getD_some] using h
  have hsz : ∀ (f : VarClient → SnipRow), (f = f0 ∨ f = f1) → ∀ subs : List (Bytes × SnipRow), subs.Perm (cs.map fun c => (c.pk, f c)) →
      ∀ e ∈ subs, e.1.length = pkLength ∧ e.2.vals.length = 2 ∧ PacketOk varCircuit e.2.packet ∧ ∀ y ∈ e.2.packet.all, Fits y := by
    intro f hf subs hs e he
    obtain ⟨c, hc, rfl⟩ := List.mem_map.1 (hs.mem_iff.1 he)
    obtain ⟨w, -, -, v0, v1, -, -, -, hpk⟩ := hrow c hc
    obtain ⟨a, b⟩ := share_sizes (hh.draws c hc) hpk
    rcases hf with rfl | rfl
    · exact ⟨hh.keys c hc, v0, a.1, a.2⟩
    · exact ⟨hh.keys c hc, v1, b.1, b.2⟩
  have l0 : subs0.length = cs.length := by rw [p0.length_eq, List.length_map]
  have l1 : subs1.length = cs.length := by rw [p1.length_eq, List.length_map]
  obtain ⟨bs0, e0, rd0⟩ := var_stream (hsz f0 (Or.inl rfl) subs0 p0)
  obtain ⟨bs1, e1, rd1⟩ := var_stream (hsz f1 (Or.inr rfl) subs1 p1)
  have hsq : ((cs.map (·.value nbits)).map fun v => v ^ 2).sum = (cs.map fun c => c.value nbits ^ 2).sum := by rw [List.map_map]; rfl
  refine ⟨bs0, bs1, e0, e1, ?_⟩
  intro rest0 rest1 x uses pos st0 st1 hs0 hs1 coef raw0 raw1 ord ho
  have v0 : VarStream cs.length (bs0 ++ rest0) subs0 := ⟨rest0, by rw [← l0]; exact rd0 rest0⟩
  have v1 : VarStream cs.length (bs1 ++ rest1) subs1 := ⟨rest1, by rw [← l1]; exact rd1 rest1⟩
  obtain ⟨hfo, hbk⟩ := bothKeys_honest_ok (ok := varFits nbits) cs (·.pk) f0 f1 hh.distinct
    (fun c hc => (hrow c hc).choose_spec.1) (fun c hc => (hrow c hc).choose_spec.2.1) subs0 subs1 p0 p1
  obtain ⟨st0', st1', hA, -⟩ := C40_var_op fma std hb hlen v0 v1 (by
    obtain ⟨c, hc⟩ := List.exists_mem_of_ne_nil _ hne
    exact ⟨(c.pk, f1 c), p1.mem_iff.2 (List.mem_map.2 ⟨c, hc, rfl⟩), (hrow c hc).choose_spec.2.1⟩) hs0 hs1 coef raw0 raw1 ord ho
  refine ⟨st0', st1', ?_⟩
  have hval : ∀ c ∈ cs, varVal nbits subs0 subs1 0 c.pk = c.value nbits ∧ varVal nbits subs0 subs1 1 c.pk = c.value nbits ^ 2 := by
    intro c hc
    obtain ⟨w, -, -, -, -, x0, x1, -⟩ := hrow c hc
    simp only [varVal, hfo c hc]
    exact ⟨x0, x1⟩
  -- all keys are counted
  have hG : varCounted x coef pos nbits subs0 subs1 (ord (admit (varFits nbits) subs1 [])).keys = (cs.map (·.pk)).toFinset := by
    classical
    unfold varCounted passing
    rw [hbk, Finset.filter_eq_self]
    intro k hk
    rw [List.mem_toFinset] at hk
    obtain ⟨c, hc, rfl⟩ := List.mem_map.1 hk
    obtain ⟨w, -, -, -, -, x0, x1, hev, hpk⟩ := hrow c hc
    have hk0 := keyVal_var nbits subs0 subs1 0 (by omega) c.pk
    have hk1 := keyVal_var nbits subs0 subs1 1 (by omega) c.pk
    rw [(hval c hc).1] at hk0
    rw [(hval c hc).2] at hk1
    simp only [keyVal, hfo c hc] at hk0 hk1
    exact C40_honest_passes (hfo c hc).1 (hfo c hc).2 hev (by rw [hk0]; simp) (by rw [hk1]; simp) hrc (hh.draws c hc) hpk hs0.canon
      (by rw [coefs_length]; exact le_rfl)
  rw [hG] at hA
  have hcard : (cs.map (·.pk)).toFinset.card = cs.length := by rw [List.toFinset_card_of_nodup hh.distinct, List.length_map]
  have hsum : ∀ {M : Type} [AddCommMonoid M] (F : Bytes → M), ∑ k ∈ (cs.map (·.pk)).toFinset, F k = (cs.map fun c => F c.pk).sum := by
    intro M _ F
    rw [List.sum_toFinset _ hh.distinct, List.map_map]; rfl
  have g1 : ∑ k ∈ (cs.map (·.pk)).toFinset, varVal nbits subs0 subs1 0 k = (cs.map (·.value nbits)).sum := by
    rw [hsum, List.map_congr_left fun c hc => (hval c hc).1]
  have g2 : ∑ k ∈ (cs.map (·.pk)).toFinset, varVal nbits subs0 subs1 1 k = ((cs.map (·.value nbits)).map fun v => v ^ 2).sum := by
    rw [hsq, hsum, List.map_congr_left fun c hc => (hval c hc).2]
  rw [List.length_map] at ha
  rw [g1, g2, hcard, ha, verdict_full] at hA
  exact hA

/-- C40 end to end: with honest clients, distinct keys and a sum of squares below `p`, in all orders of arrival, iteration and
scheduling, VAR answers with the population variance of the clients' values and STDDEV with its root, up to rounding (`NearVar`). -/
theorem C40_honest (fma std : Bool) {nbits : ℕ} (hb : nbits ≤ 24) {t : RootTables} {cs : List VarClient} (hne : cs ≠ [])
    (hlen : cs.length < 2 ^ 32) {subs0 subs1 : List (Bytes × SnipRow)} (hh : HonestVar nbits t cs subs0 subs1)
    (hp : (cs.map fun c => c.value nbits ^ 2).sum < intModulus) :
    ∃ bs0 bs1 a, encVarShares subs0 = some bs0 ∧ encVarShares subs1 = some bs1 ∧
    NearVar std (listVar (cs.map (·.value nbits))) (meanSq (cs.map (·.value nbits)))
      (∀ u ∈ cs.map (·.value nbits), ∀ v ∈ cs.map (·.value nbits), u = v) a ∧
    ∀ (rest0 rest1 : Bytes) {x : ℤ} {uses pos : ℕ} {st0 st1 : SnipState} (_ : SnipOk x uses pos st0) (_ : SnipOk x uses pos st1)
      (coef : ℕ → ℤ) (raw0 raw1 : ℕ → ℕ → ℕ → U64) (ord : Map SnipRow → Map SnipRow) (_ : IsOrder ord),
    ∃ st0' st1', Always (varOp0 fma std nbits cs.length (bs0 ++ rest0) coef raw0 st0) (varOp1 nbits cs.length (bs1 ++ rest1) coef raw1 st1 ord)
      (.ans (some a), st0') (.noAns, st1') := by
  have hp48 : intModulus ≤ 2 ^ 48 := by decide
  have hsq : ((cs.map (·.value nbits)).map fun v => v ^ 2).sum = (cs.map fun c => c.value nbits ^ 2).sum := by rw [List.map_map]; rfl
  obtain ⟨a, ha, hnear⟩ := varAnswer_near fma std (l := cs.map (·.value nbits)) (by simpa using hne) (by rw [List.length_map]; omega)
    (by rw [hsq]; omega)
  have hle := sum_le_sum_sq (cs.map (·.value nbits))
  obtain ⟨bs0, bs1, h0, h1, h⟩ := var_honest_run fma std hb hne hlen hh (o := some a)
    (by rw [Nat.mod_eq_of_lt (by omega), Nat.mod_eq_of_lt (by omega)]; exact ha)
  exact ⟨bs0, bs1, a, h0, h1, hnear, h⟩

/-- Non-vacuity: one honest client with the value 3. -/
example : ∃ t cs subs0 subs1, HonestVar 4 t cs subs0 subs1 ∧ cs ≠ [] ∧ cs.map (·.value 4) = [3] ∧
    (cs.map fun c => c.value 4 ^ 2).sum < intModulus := by
  obtain ⟨t, ht⟩ := C30_sizes (c := varCircuit) (by decide) [] _ .start
  let c : VarClient := ⟨List.replicate 32 1#8, 19#64, 6#64, 100#64, ⟨1, 2, [3, 4], 5, 6, 7, [8], 9, 10, 11, 12, 13⟩⟩
  have hr : ValidRand intModulus varCircuit c.rand := by
    refine ⟨rfl, rfl, ?_, ?_, ?_, ?_⟩ <;> simp only [IsDraw, c] <;> decide
  obtain ⟨real, r0, r1, w, e, -⟩ := clientVar_spec (nbits := 4) (by norm_num) ht c hr
  refine ⟨t, [c], [(c.pk, r0)], [(c.pk, r1)], ⟨⟨_, ht⟩, by simp, by simp [c, pkLength], by simpa using hr, ?_, ?_⟩, by simp,
    by simp [VarClient.value, c], by simp [VarClient.value, c, intModulus]⟩
  · simp [e]
  · simp [e]

end Verif

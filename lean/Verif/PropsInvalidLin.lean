import Verif.LemmasInvalidLin
import Verif.PropsInvalidVar

/-!
# C80, continued: the debugging client for LINREG
-/

namespace Verif

/-- Intercept and slope from the normal equations, by Cramer's rule; `none` if they have no unique solution. `m`: number of points; then the sums of `x`, of
`x²`, of `y` and of `xy`. -/
def line2 (m sx sxx sy sxy : ℕ) : Option (List ℚ) :=
  if (m * sxx - sx ^ 2 : ℚ) = 0 then none
  else some [(sxx * sy - sx * sxy) / (m * sxx - sx ^ 2), (m * sxy - sx * sy) / (m * sxx - sx ^ 2)]

/-- For degree 2, `SolveLinReg` computes that. -/
theorem solve_line {m sx sxx sy sxy : ℕ} {xa ya : List U64} (hx : xa.map (·.toNat) = [m, sx, sxx]) (hy : ya.map (·.toNat) = [sy, sxy]) :
    solveLinReg 2 xa ya = some (line2 m sx sxx sy sxy) := by
  obtain ⟨a, xa', rfl, rfl, hx'⟩ := List.map_eq_cons_iff.1 hx
  obtain ⟨b, xb', rfl, rfl, hx''⟩ := List.map_eq_cons_iff.1 hx'
  obtain ⟨c, xc', rfl, rfl, hx3⟩ := List.map_eq_cons_iff.1 hx''
  rw [List.map_eq_nil_iff] at hx3; subst hx3
  obtain ⟨u, yu', rfl, rfl, hy'⟩ := List.map_eq_cons_iff.1 hy
  obtain ⟨v, yv', rfl, rfl, hy''⟩ := List.map_eq_cons_iff.1 hy'
  rw [List.map_eq_nil_iff] at hy''; subst hy''
  clear hx hx' hx'' hy hy'
  set X : Matrix (Fin 2) (Fin 2) ℚ := !![(a.toNat : ℚ), b.toNat; b.toNat, c.toNat] with hX
  have hdet : X.det = a.toNat * c.toNat - (b.toNat : ℚ) ^ 2 := by rw [hX, Matrix.det_fin_two_of]; ring
  have key : solveLinReg 2 [a, b, c] [u, v] = some (if X.det = 0 then none else some (List.ofFn (X⁻¹.mulVec ![(u.toNat : ℚ), v.toNat]))) := by
    unfold solveLinReg
    simp only [fillFirst, fillOuter, fillInner, List.getElem?_cons_zero, List.getElem?_cons_succ, Option.bind_some, Nat.zero_add, Nat.add_one_sub_one,
      List.length_cons, List.length_nil, Nat.lt_irrefl, if_false]
    have e1 : (fun i j : Fin 2 => setSym (setSym (setSym (fun _ _ => (0 : ℚ)) 0 0 a.toNat) 1 0 b.toNat) 1 1 c.toNat i j) = X := by
      funext i j
      fin_cases i <;> fin_cases j <;> simp [setSym, hX]
    have e2 : (fun i : Fin 2 => ((([u, v] : List U64).getD i 0#64).toNat : ℚ)) = ![(u.toNat : ℚ), v.toNat] := by
      funext i
      fin_cases i <;> rfl
    rw [← e2, ← e1]
  rw [key]
  unfold line2
  by_cases h : X.det = 0
  · rw [if_pos h, if_pos (by rw [← hdet]; exact h)]
  · rw [if_neg h, if_neg (by rw [← hdet]; exact h)]
    congr 2
    rw [Matrix.inv_def, Ring.inverse_eq_inv', hdet, hX, Matrix.adjugate_fin_two_of]
    simp [List.ofFn_succ]
    constructor <;> ring

/-- The clients accepted: those not marked invalid, and clients 1 and 2 if the words drawn for them happen to be in range. -/
def acceptedD (nbits : ℕ) (d : ℕ → LinSix) (i : ℕ) : Bool :=
  countsC i || (i == 1 && decide ((d 1).y0.toNat < 2 ^ nbits)) || (i == 2 && decide ((d 2).x20.toNat < 2 ^ (2 * nbits)))

theorem acceptedD_iff (nbits : ℕ) (d : ℕ → LinSix) (i : ℕ) : acceptedD nbits d i = true ↔
    (9 < i ∧ i ≠ 11 ∧ i ≠ 13) ∨ (i = 1 ∧ (d 1).y0.toNat < 2 ^ nbits) ∨ (i = 2 ∧ (d 2).x20.toNat < 2 ^ (2 * nbits)) := by
  simp [acceptedD, countsC_iff, or_assoc]

/-- If the words are out of range, exactly the clients not marked invalid are accepted. -/
theorem acceptedD_eq {nbits : ℕ} {d : ℕ → LinSix} (h1 : 2 ^ nbits ≤ (d 1).y0.toNat) (h2 : 2 ^ (2 * nbits) ≤ (d 2).x20.toNat) : acceptedD nbits d = countsC := by
  funext i
  rw [Bool.eq_iff_iff, acceptedD_iff, countsC_iff]
  omega

theorem acceptedD_held {nbits : ℕ} {d : ℕ → LinSix} {i : ℕ} (h : acceptedD nbits d i = true) : heldD nbits d i = true := by
  rw [acceptedD_iff] at h
  rw [heldD_iff]
  omega

/-- C80 is false of LINREG as well: from 12 submissions on the program is undefined, and with 32 bits or more from the first one on. -/
theorem C80_false_undefined_lin (nbits : ℕ) (t : RootTables) (rand : ℕ → SnipRand) (n : ℕ) (mx : BitVec 32) (g : Prg) :
    (12 ≤ n → linInvalid nbits t rand .real n mx g = none) ∧
      (∀ stale, 0 < n → 32 ≤ nbits → linInvalid nbits t rand stale n mx g = none) := by
  constructor
  · intro h
    unfold linInvalid
    split
    · rfl
    dsimp only
    rw [Option.bind_eq_none_iff]
    intro rows _
    rw [badSubs_none (i := 11) (by omega) rfl]; rfl
  · intro stale h0 h
    have e : (1#64 <<< nbits : U64) * (1#64 <<< nbits) = 0#64 := by
      apply BitVec.eq_of_toNat_eq
      rw [BitVec.toNat_mul, BitVec.toNat_shiftLeft, Nat.shiftLeft_eq, ← Nat.mul_mod]
      have e1 : (1#64 : U64).toNat = 1 := rfl
      have e2 : (2 : ℕ) ^ (nbits + nbits) = 2 ^ 64 * 2 ^ (nbits + nbits - 64) := by rw [← pow_add]; congr 1; omega
      rw [e1, one_mul, ← pow_add, e2, Nat.mul_mod_right]; rfl
    unfold linInvalid
    rw [if_pos ⟨h0, e⟩]

/-! ## What the program prints -/

/-- The sum of `f` over the clients `l`. -/
def over (l : List ℕ) (f : ℕ → ℕ) : ℕ := (l.map f).sum

theorem linTotals_eq (nbits : ℕ) (d : ℕ → LinSix) (n : ℕ) : linTotals nbits d n =
    ([BitVec.ofNat 64 (valid countsC n).length, BitVec.ofNat 64 (over (valid countsC n) fun i => (badX nbits d i).toNat),
        BitVec.ofNat 64 (over (valid countsC n) fun i => (badX2 nbits d i).toNat)],
      [BitVec.ofNat 64 (over (valid countsC n) fun i => (badY nbits d i).toNat), BitVec.ofNat 64 (over (valid countsC n) fun i => (badXY nbits d i).toNat)]) := by
  unfold linTotals
  rw [fold_valid countsC_false]
  generalize valid countsC n = l
  have : ∀ (l : List ℕ) (a b c u v : U64), l.foldl (fun s i => (List.zipWith (· + ·) s.1 [1#64, badX nbits d i, badX2 nbits d i],
        List.zipWith (· + ·) s.2 [badY nbits d i, badXY nbits d i])) ([a, b, c], [u, v]) =
      ([a + BitVec.ofNat 64 l.length, b + BitVec.ofNat 64 (over l fun i => (badX nbits d i).toNat), c + BitVec.ofNat 64 (over l fun i => (badX2 nbits d i).toNat)],
        [u + BitVec.ofNat 64 (over l fun i => (badY nbits d i).toNat), v + BitVec.ofNat 64 (over l fun i => (badXY nbits d i).toNat)]) := by
    intro l
    induction l with
    | nil => intro a b c u v; simp [over]
    | cons i l ih =>
      intro a b c u v
      rw [List.foldl_cons]
      simp only [List.zipWith_cons_cons, List.zipWith_nil_left]
      rw [ih]
      simp only [over, List.map_cons, List.sum_cons, BitVec.ofNat_add, BitVec.ofNat_toNat, BitVec.setWidth_eq, List.length_cons, BitVec.add_assoc]
      rw [BitVec.add_comm (BitVec.ofNat 64 l.length)]
  rw [this]
  simp

theorem over_congr {l : List ℕ} {f f' : ℕ → ℕ} (h : ∀ i ∈ l, f i = f' i) : over l f = over l f' := by
  unfold over; rw [List.map_congr_left h]

/-- The program prints the line through the points of the clients not marked invalid (the sums modulo 2^64). -/
theorem linTotals_line {nbits : ℕ} (hb : nbits ≤ 24) (d : ℕ → LinSix) {n : ℕ} (hn : n < 2 ^ 32) :
    let V := valid countsC n
    let x := fun i => (badX nbits d i).toNat
    let y := fun i => (badY nbits d i).toNat
    solveLinReg 2 (linTotals nbits d n).1 (linTotals nbits d n).2 = some (line2 V.length (over V x % 2 ^ 64) (over V (fun i => x i ^ 2) % 2 ^ 64)
      (over V y % 2 ^ 64) (over V (fun i => x i * y i) % 2 ^ 64)) := by
  intro V x y
  have hl := valid_le countsC n
  have hV : ∀ i ∈ V, 9 < i := fun i hi => ((countsC_iff i).1 (List.mem_filter.1 hi).2).1
  have e1 : over V (fun i => (badX2 nbits d i).toNat) = over V fun i => x i ^ 2 := over_congr fun i hi => badX2_eq hb d (by have := hV i hi; omega)
  have e2 : over V (fun i => (badXY nbits d i).toNat) = over V fun i => x i * y i := over_congr fun i hi => badXY_eq hb d (by have := hV i hi; omega)
  rw [linTotals_eq]
  refine solve_line ?_ ?_
  · rw [← e1]
    simp only [List.map_cons, List.map_nil, BitVec.toNat_ofNat]
    rw [Nat.mod_eq_of_lt (show (valid countsC n).length < 2 ^ 64 by omega)]
  · rw [← e2]
    simp only [List.map_cons, List.map_nil, BitVec.toNat_ofNat]
    rfl

/-! ## The servers -/

/-- The streams of the program, and what the servers hold: exactly the shares of the clients whose keys match and whose shares are in range. -/
theorem linInvalid_streams {nbits : ℕ} (hb : nbits ≤ 24) {t : RootTables} {l : List ℕ} (hrc : RootCalls (4 :: l) t) {n : ℕ}
    (hn : n < 2 ^ 32) {rand : ℕ → SnipRand} (hr : ∀ i < n, ValidRand intModulus lin2 (rand i)) (mx : BitVec 32) {g : Prg}
    (ha : Function.Injective g.aes) (hpos : g.pos + 6 * n < 2 ^ 64) {stale : Stale} (hs : Harmless stale spoilC (sixKey g) n (heldD nbits (sixAt g))) :
    ∃ a b s0 s1, ∃ o : ℕ → LinRow × LinRow, (∃ q, solveLinReg 2 (linTotals nbits (sixAt g) n).1 (linTotals nbits (sixAt g) n).2 = some q ∧
        linInvalid nbits t rand stale n mx g = some (encInit (initMsg 9#32 n mx) ++ s0, encInit (initMsg 9#32 n mx) ++ s1, q)) ∧
      LinStream 2 n s0 a ∧ LinStream 2 n s1 b ∧
      (∀ i < n, linBad nbits t rand (sixAt g) i = some (o i)) ∧
      a.length = n ∧ b.length = n ∧ b.map (·.2) = (List.range n).map (fun i => (o i).2) ∧
      (∀ i ∈ (List.range n).filter (heldD nbits (sixAt g)), firstOf (linFits nbits) a (sixKey g i) = some (o i).1 ∧
        firstOf (linFits nbits) b (sixKey g i) = some (o i).2) ∧
      bothKeys (linFits nbits) a b = (((List.range n).filter (heldD nbits (sixAt g))).map (sixKey g)).toFinset := by
  set d := sixAt g with hd
  set o : ℕ → LinRow × LinRow := fun i => (linBad nbits t rand d i).getD default with ho
  have hbad : ∀ i < n, linBad nbits t rand d i = some (o i) := by
    intro i hi
    obtain ⟨pk, w, b, q, z, -, -, -, h⟩ := linBad_some hb hrc d (hr i hi)
    simp only [ho, h, Option.getD_some]
  have hrow : ∀ i < n, ∃ pk w, sharePolynomials intModulus lin2 w t (rand i) = some pk ∧ o i = (linBad0 nbits d i (tamper i pk).1, linBad1 nbits d i (tamper i pk).2) := by
    intro i hi
    obtain ⟨pk, w, b, q, z, -, -, hpk, h⟩ := linBad_some hb hrc d (hr i hi)
    rw [hbad i hi] at h
    exact ⟨pk, w, hpk, Option.some.inj h⟩
  have hrows : optAll ((List.range n).map (linBad nbits t rand d)) = some ((List.range n).map o) := optAll_range hbad
  have hget : ∀ i < n, ((List.range n).map o).getD i default = o i := by
    intro i hi
    rw [List.getD_eq_getElem _ _ (by simpa using hi)]
    simp
  obtain ⟨a, b, ea, eb, la, lb, ka, kb, ra, rb, hnd, hf, hbk⟩ := spoiled_keys (ok := linFits nbits) (sh0 := fun i => (((List.range n).map o).getD i default).1)
    (sh1 := fun i => (((List.range n).map o).getD i default).2) (key := sixKey g)
    (good := heldD nbits d) (fun i => C54_length _) (sixKey_distinct ha hpos) (fun i => misspell_ne _ _) hs (by decide)
    (by
      intro i hi
      obtain ⟨pk, w, -, e⟩ := hrow i hi
      rw [heldD_iff, hget i hi, e]
      dsimp only
      simp only [spoilC]
      constructor
      · rintro ⟨c0, c9, c11, c13, c1, c2⟩
        have hf0 := (linFits_bad0 hb d i (tamper i pk).1).2 ⟨c1, c2⟩
        exact ⟨c9, c11, c13, hf0, (linFits_bad1 hb d _ _ hf0).2 c0⟩
      · rintro ⟨c9, c11, c13, hf0, hf1⟩
        have := (linFits_bad0 hb d i (tamper i pk).1).1 hf0
        exact ⟨(linFits_bad1 hb d _ _ hf0).1 hf1, c9, c11, c13, this.1, this.2⟩)
  have hsz : ∀ (sub : List (Bytes × LinRow)) (F : LinRow × LinRow → LinRow), (F = Prod.fst ∨ F = Prod.snd) → Keyed sub →
      sub.map (·.2) = (List.range n).map (fun i => F (((List.range n).map o).getD i default)) →
      ∀ e ∈ sub, e.1.length = pkLength ∧ LinRowOk lin2 2 e.2 ∧ ∀ y ∈ e.2.packet.all, Fits y := by
    intro sub F hF hk hm e he
    have : e.2 ∈ sub.map (·.2) := List.mem_map.2 ⟨e, he, rfl⟩
    rw [hm] at this
    obtain ⟨i, hi, h⟩ := List.mem_map.1 this
    have hi := List.mem_range.1 hi
    obtain ⟨pk, w, hpk, e'⟩ := hrow i hi
    obtain ⟨z0, z1⟩ := tamper_sizes (hr i hi) hpk i
    rw [hget i hi, e'] at h
    rw [← h]
    rcases hF with rfl | rfl
    · exact ⟨hk e he, (linBad_rowOk d i z0.1).1, z0.2⟩
    · exact ⟨hk e he, (linBad_rowOk d i z1.1).2, z1.2⟩
  obtain ⟨s0, eb0, rd0⟩ := lin_stream (by norm_num) (c := lin2) (by decide) (hsz a _ (.inl rfl) ka ra)
  obtain ⟨s1, eb1, rd1⟩ := lin_stream (by norm_num) (c := lin2) (by decide) (hsz b _ (.inr rfl) kb rb)
  have v0 : LinStream 2 n s0 a := by have := rd0 []; rwa [List.append_nil, la] at this
  have v1 : LinStream 2 n s1 b := by have := rd1 []; rwa [List.append_nil, lb] at this
  have hmx : ¬ (0 < n ∧ (1#64 <<< nbits : U64) * (1#64 <<< nbits) = 0#64) := by
    rintro ⟨-, h⟩
    have h1 := sq_shl (show nbits ≤ 31 by omega)
    rw [h] at h1
    have : 0 < 2 ^ (2 * nbits) := by positivity
    have e0 : (0#64 : U64).toNat = 0 := rfl
    omega
  have hq := linTotals_line hb d hn
  dsimp only at hq
  refine ⟨a, b, s0, s1, o, ⟨_, hq, ?_⟩, v0, v1, hbad, la, lb, ?_, ?_, hbk⟩
  · unfold linInvalid
    rw [if_neg hmx]
    simp only [← hd, hrows, Option.bind_some, ea, eb, eb0, eb1, hq, Option.map_some]
  · rw [rb]
    exact List.map_congr_left fun i hi => by rw [hget i (List.mem_range.1 hi)]
  · intro i hi
    have := hf i hi
    rwa [hget i (List.mem_range.1 (List.mem_filter.1 hi).1)] at this

/-- C80 for LINREG (1 to 24 bits, at least four submissions), provided that what the client finds in the released memory is harmless and that the changes made
for clients 6 and 8 do change something: the program is defined, and for all but `9 n p^(3M)` of the `p^(3M+1)` choices of the check point and of the
coefficients (`M` submissions held by server 1), the servers answer from the points of the clients they accept, for every schedule. -/
theorem C80_lin_partial (c : StoreCfg) {g0 g1 : StoreRng} (hg : GoodRng intModulus g0) {nbits : ℕ} (h1 : 1 ≤ nbits) (hb : nbits ≤ 24)
    {t : RootTables} {l : List ℕ} (hrc : RootCalls (4 :: l) t) {n : ℕ} (h4 : 4 ≤ n) (hn : n < 2 ^ 32) {rand : ℕ → SnipRand}
    (hr : ∀ i < n, ValidRand intModulus lin2 (rand i)) (mx : BitVec 32) {g : Prg} (ha : Function.Injective g.aes) (hpos : g.pos + 6 * n < 2 ^ 64)
    (h6 : ((rand 6).g0 : ZMod intModulus) ≠ 0 ∨ (badX nbits (sixAt g) 6).toNat ≠ 0) (h8 : (rand 8).B ≠ 0)
    {stale : Stale} (hs : Harmless stale spoilC (sixKey g) n (heldD nbits (sixAt g))) :
    let x := fun i => (badX nbits (sixAt g) i).toNat
    let y := fun i => (badY nbits (sixAt g) i).toNat
    let V := valid countsC n
    let A := valid (acceptedD nbits (sixAt g)) n
    let P := intModulus
    ∃ out, linInvalid nbits t rand stale n mx g = some out ∧
      out.2.2 = line2 V.length (over V x % 2 ^ 64) (over V (fun i => x i ^ 2) % 2 ^ 64) (over V y % 2 ^ 64) (over V (fun i => x i * y i) % 2 ^ 64) ∧
      ∀ ord : Map LinRow → Map LinRow, IsOrder ord → ∃ (M : ℕ) (Bad : Finset (BatchDraws intModulus 2 M)),
        Bad.card ≤ n * (9 * intModulus ^ (3 * M)) ∧ ∀ ω ∉ Bad, ∀ e0 e1 s0 s1 z coef, Ready e0 e1 s0 s1 out.1 out.2.1 → InStep z s0 s1 →
          e1.ord (α := LinRow) = ord → (z.refresh e1.draw).x = (ω.1.val : ℤ) →
          (∀ i : Fin M, coefs coef (z.refresh e1.draw).pos 3 i = coefList (ω.2 i)) →
        ∃ s0' s1', Always (iteration false c g0 nbits coef e0 s0) (iteration true c g1 nbits coef e1 s1)
          (.lin (verdict A.length n (line2 A.length (over A x % P) (over A (fun i => x i ^ 2) % P) (over A y % P) (over A (fun i => x i * y i) % P))), s0')
          (.lin .noAns, s1') ∧ ∃ z, InStep z s0' s1' := by
  intro x y V A P
  classical
  obtain ⟨a, b, s0, s1, o, ⟨q, hq, hout⟩, v0, v1, hbad, la, lb, hb2, hf, hbk⟩ := linInvalid_streams hb hrc hn hr mx ha hpos hs
  set d := sixAt g with hd
  set key := sixKey g with hkey
  have hq' := linTotals_line hb d hn
  dsimp only at hq'
  rw [hq] at hq'
  refine ⟨_, hout, Option.some.inj hq', fun ord hord => ?_⟩
  obtain ⟨Bad, hcard, hB⟩ := C69_linreg_batch (d := 2) (by norm_num) (by decide) (nbits := nbits) checkLin2 v0 v1 hrc ord hord
  refine ⟨_, Bad, hcard, ?_⟩
  intro ω hω e0 e1 t0 t1 z coef h hy hord' hx hco
  have hinj : ∀ i < n, ∀ j < n, key i = key j → i = j := sixKey_distinct ha hpos
  have hfit : ∃ e ∈ b, linFits nbits e.2 = true := by
    have hm : 3 ∈ (List.range n).filter (heldD nbits d) :=
      List.mem_filter.2 ⟨List.mem_range.2 (by omega), (heldD_iff _ _).2 (by simp)⟩
    exact ⟨_, firstOf_mem (hf 3 hm).2, firstOf_ok (hf 3 hm).2⟩
  obtain ⟨ans, s0', s1', hP, hA, hI⟩ := iteration_pair c (g1 := g1) hg (nbits := nbits) coef (b := .lin 2 a b) (e0 := e0) (e1 := e1)
    ⟨s0, s1, by rw [h.stream0, la]; exact opens_init _ hn _ _, by rw [la]; exact v0, by rw [h.stream1, lb]; exact opens_init _ hn _ _,
      by rw [lb]; exact v1⟩ ⟨hb, by norm_num, by decide, hfit⟩ h.ord h.draw hy
  refine ⟨s0', s1', ?_, _, hI⟩
  obtain ⟨c', hc', xa, ya, q', hsol, hxa, hya, hA⟩ := hA
  rw [checkLin2] at hc'; cases hc'
  have hcan : Canon (z.refresh e1.draw).x intModulus := refresh_canon hy.sn0.canon h.draw
  -- the counted keys
  have hG : linCounted lin2 (z.refresh e1.draw).x coef (z.refresh e1.draw).pos nbits a b (ord (admit (linFits nbits) b [])).keys = (A.map key).toFinset := by
    ext k
    rw [List.mem_toFinset]
    constructor
    · intro hk
      have hkb := Finset.mem_of_mem_filter _ hk
      rw [hbk, List.mem_toFinset] at hkb
      obtain ⟨i, hi, rfl⟩ := List.mem_map.1 hkb
      rw [hx] at hk
      obtain ⟨r0, r1, q0, q1, hpr⟩ := hB ω hω coef _ hco _ hk
      rw [(hf i hi).1] at q0; cases q0
      rw [(hf i hi).2] at q1; cases q1
      obtain ⟨hir, hih⟩ := List.mem_filter.1 hi
      have hin := List.mem_range.1 hir
      refine List.mem_map.2 ⟨i, List.mem_filter.2 ⟨hir, (acceptedD_iff _ _ _).2 ?_⟩, rfl⟩
      obtain ⟨c0, c9, c11, c13, c1, c2⟩ := (heldD_iff _ _).1 hih
      by_cases hi1 : i = 1
      · exact .inr (.inl ⟨hi1, c1 hi1⟩)
      by_cases hi2 : i = 2
      · exact .inr (.inr ⟨hi2, c2 hi2⟩)
      · left
        by_contra hcon
        have hge : 3 ≤ i := by omega
        have hle : i ≤ 8 := by omega
        exact linBad_not_proven h1 hb hrc d (hr i hin) hge hle (fun _ => h6) (fun _ => h8) (hbad i hin) hpr
    · intro hk
      obtain ⟨i, hi, rfl⟩ := List.mem_map.1 hk
      obtain ⟨hir, hia⟩ := List.mem_filter.1 hi
      have hin := List.mem_range.1 hir
      have hih : heldD nbits d i = true := acceptedD_held hia
      have hm : i ∈ (List.range n).filter (heldD nbits d) := List.mem_filter.2 ⟨hir, hih⟩
      have hrange : i < 3 ∨ 8 < i := by rw [acceptedD_iff] at hia; omega
      refine Finset.mem_filter.2 ⟨?_, ?_⟩
      · rw [hbk, List.mem_toFinset]; exact List.mem_map.2 ⟨i, hm, rfl⟩
      · exact linBad_passes hb hrc (hr i hin) hrange (hbad i hin) (hf i hm).1 (hf i hm).2 hcan (by simp [coefs, lin2])
  have hndA : (A.map key).Nodup := by
    refine List.Nodup.map_on (fun i hi j hj he => ?_) (List.nodup_range.filter _)
    exact hinj i (List.mem_range.1 (List.mem_filter.1 hi).1) j (List.mem_range.1 (List.mem_filter.1 hj).1) he
  have hval : ∀ i ∈ A, linAt nbits a b (key i) = ⟨[x i], y i, [x i ^ 2], [x i * y i]⟩ := by
    intro i hi
    obtain ⟨hir, hia⟩ := List.mem_filter.1 hi
    have hin := List.mem_range.1 hir
    have hih : heldD nbits d i = true := acceptedD_held hia
    rw [acceptedD_iff] at hia
    have hm : i ∈ (List.range n).filter (heldD nbits d) := List.mem_filter.2 ⟨hir, hih⟩
    obtain ⟨pk, w, b', q1, q2, -, -, -, ho⟩ := linBad_some hb hrc d (hr i hin)
    rw [hbad i hin] at ho
    have ho := Option.some.inj ho
    unfold linAt
    rw [(hf i hm).1, (hf i hm).2, ho]
    dsimp only
    rw [linRec_bad, badX2_eq hb d (by omega), badXY_eq hb d (by omega)]
  have hsum : ∀ (F : LinVal → ℕ) (f : ℕ → ℕ), (∀ i ∈ A, F (linAt nbits a b (key i)) = f i) → ∑ k ∈ (A.map key).toFinset, F (linAt nbits a b k) = over A f := by
    intro F f hFf
    rw [List.sum_toFinset _ hndA, List.map_map]
    exact congrArg List.sum (List.map_congr_left hFf)
  dsimp only at hxa hya hA
  rw [hord', hG] at hxa hya hA
  rw [List.toFinset_card_of_nodup hndA, List.length_map, la] at hA
  have hxa' : xa.map (·.toNat) = [A.length, over A x % P, over A (fun i => x i ^ 2) % P] := by
    rw [hxa]
    unfold xAcc
    rw [List.toFinset_card_of_nodup hndA, List.length_map]
    have n1 : numQuad 2 = 1 := by decide
    rw [n1]
    simp only [Nat.add_one_sub_one, List.range_one, List.map_cons, List.map_nil, List.cons_append, List.nil_append]
    rw [hsum (fun v => v.x.getD 0 0) x (fun i hi => by rw [hval i hi]; rfl), hsum (fun v => v.x2.getD 0 0) (fun i => x i ^ 2) (fun i hi => by rw [hval i hi]; rfl)]
  have hya' : ya.map (·.toNat) = [over A y % P, over A (fun i => x i * y i) % P] := by
    rw [hya]
    unfold yAcc
    simp only [Nat.add_one_sub_one, List.range_one, List.map_cons, List.map_nil]
    rw [hsum (fun v => v.y) y (fun i hi => by rw [hval i hi]), hsum (fun v => v.xy.getD 0 0) (fun i => x i * y i) (fun i hi => by rw [hval i hi]; rfl)]
  rw [solve_line hxa' hya'] at hsol
  cases hsol
  rw [hA] at hP
  exact hP.always

/-- If moreover the words drawn for clients 1 and 2 are out of range, and the sums of the squares and of the products that count are below `p`: from 24
submissions on, the answer of the servers is the one printed (below 24 the batch is reported invalid). -/
theorem C80_lin_same_partial (c : StoreCfg) {g0 g1 : StoreRng} (hg : GoodRng intModulus g0) {nbits : ℕ} (h1 : 1 ≤ nbits) (hb : nbits ≤ 24)
    {t : RootTables} {l : List ℕ} (hrc : RootCalls (4 :: l) t) {n : ℕ} (h4 : 4 ≤ n) (hn : n < 2 ^ 32) {rand : ℕ → SnipRand}
    (hr : ∀ i < n, ValidRand intModulus lin2 (rand i)) (mx : BitVec 32) {g : Prg} (ha : Function.Injective g.aes) (hpos : g.pos + 6 * n < 2 ^ 64)
    (h6 : ((rand 6).g0 : ZMod intModulus) ≠ 0 ∨ (badX nbits (sixAt g) 6).toNat ≠ 0) (h8 : (rand 8).B ≠ 0)
    (hy1 : 2 ^ nbits ≤ (sixAt g 1).y0.toNat) (hx2 : 2 ^ (2 * nbits) ≤ (sixAt g 2).x20.toNat)
    (hp : over (valid countsC n) (fun i => (badX nbits (sixAt g) i).toNat ^ 2) < intModulus)
    (hpy : over (valid countsC n) (fun i => (badY nbits (sixAt g) i).toNat) < intModulus)
    (hpxy : over (valid countsC n) (fun i => (badX nbits (sixAt g) i).toNat * (badY nbits (sixAt g) i).toNat) < intModulus)
    {stale : Stale} (hs : Harmless stale spoilC (sixKey g) n (heldD nbits (sixAt g))) :
    let x := fun i => (badX nbits (sixAt g) i).toNat
    let y := fun i => (badY nbits (sixAt g) i).toNat
    let V := valid countsC n
    ∃ out, linInvalid nbits t rand stale n mx g = some out ∧ out.2.2 = line2 V.length (over V x) (over V fun i => x i ^ 2) (over V y) (over V fun i => x i * y i) ∧
      ∀ ord : Map LinRow → Map LinRow, IsOrder ord → ∃ (M : ℕ) (Bad : Finset (BatchDraws intModulus 2 M)),
        Bad.card ≤ n * (9 * intModulus ^ (3 * M)) ∧ ∀ ω ∉ Bad, ∀ e0 e1 s0 s1 z coef, Ready e0 e1 s0 s1 out.1 out.2.1 → InStep z s0 s1 →
          e1.ord (α := LinRow) = ord → (z.refresh e1.draw).x = (ω.1.val : ℤ) →
          (∀ i : Fin M, coefs coef (z.refresh e1.draw).pos 3 i = coefList (ω.2 i)) →
        ∃ s0' s1', Always (iteration false c g0 nbits coef e0 s0) (iteration true c g1 nbits coef e1 s1)
          (.lin (if 24 ≤ n then .ans out.2.2 else .invalid), s0') (.lin .noAns, s1') ∧ ∃ z, InStep z s0' s1' := by
  intro x y V
  obtain ⟨out, ho, hpr, h⟩ := C80_lin_partial c (g1 := g1) hg h1 hb hrc h4 hn hr mx ha hpos h6 h8 hs
  have hp64 : intModulus < 2 ^ 64 := by decide
  have hle : over V x ≤ over V fun i => x i ^ 2 := by
    have := sum_le_sum_sq (V.map x)
    rwa [List.map_map] at this
  have hp : over V (fun i => x i ^ 2) < intModulus := hp
  have hpy : over V y < intModulus := hpy
  have hpxy : over V (fun i => x i * y i) < intModulus := hpxy
  have e : ∀ {m}, m < intModulus → m % 2 ^ 64 = m := fun hm => Nat.mod_eq_of_lt (hm.trans hp64)
  have hpr : out.2.2 = line2 V.length (over V x) (over V fun i => x i ^ 2) (over V y) (over V fun i => x i * y i) := by
    rw [hpr, e (hle.trans_lt hp), e hp, e hpy, e hpxy]
  refine ⟨out, ho, hpr, fun ord hord => ?_⟩
  obtain ⟨M, Bad, hc, hB⟩ := h ord hord
  refine ⟨M, Bad, hc, fun ω hω e0 e1 s0 s1 z coef hR hy ho hx hco => ?_⟩
  have := hB ω hω e0 e1 s0 s1 z coef hR hy ho hx hco
  rw [acceptedD_eq hy1 hx2, Nat.mod_eq_of_lt (hle.trans_lt hp), Nat.mod_eq_of_lt hp, Nat.mod_eq_of_lt hpy, Nat.mod_eq_of_lt hpxy, ← hpr,
    C80_threshold_var] at this
  simpa [show n ≠ 0 by omega] using this

/-- With up to three submissions the debugging client stops both servers (the words of clients 1 and 2 being out of range). The program itself finds a
singular matrix and prints a meaningless result. -/
theorem C80_false_lin_few {nbits : ℕ} (hb : nbits ≤ 24) {t : RootTables} {l : List ℕ} (hrc : RootCalls (4 :: l) t) {n : ℕ} (h3 : n ≤ 3)
    {rand : ℕ → SnipRand} (hr : ∀ i < n, ValidRand intModulus lin2 (rand i)) (mx : BitVec 32) {g : Prg} (ha : Function.Injective g.aes)
    (hpos : g.pos + 6 * n < 2 ^ 64) (hy1 : 2 ^ nbits ≤ (sixAt g 1).y0.toNat) (hx2 : 2 ^ (2 * nbits) ≤ (sixAt g 2).x20.toNat) (stale : Stale) :
    ∃ s0 s1, linInvalid nbits t rand stale n mx g = some (encInit (initMsg 9#32 n mx) ++ s0, encInit (initMsg 9#32 n mx) ++ s1, none) ∧
      ∀ (st0 st1 : SnipState) (coef : ℕ → ℤ) (raw0 raw1 : ℕ → ℕ → ℕ → U64) (u : ℕ → ℕ → U64) (ord : Map LinRow → Map LinRow), IsOrder ord →
        Crashes0 (linOp0 nbits n s0 coef raw0 u st0) (linOp1 nbits n s1 coef raw1 st1 ord) := by
  have hs : Harmless stale spoilC (sixKey g) n (heldD nbits (sixAt g)) := by
    refine ⟨?_, fun h => absurd h (by simp only [spoilC]; omega)⟩
    rintro i (rfl | rfl) h <;> (simp only [spoilC] at h; omega)
  obtain ⟨a, b, s0, s1, o, ⟨q, hq, hout⟩, v0, v1, hbad, la, lb, hb2, -⟩ := linInvalid_streams hb hrc (by omega) hr mx ha hpos hs
  have hnone : valid countsC n = [] := by interval_cases n <;> decide
  have hq' := linTotals_line hb (sixAt g) (show n < 2 ^ 32 by omega)
  dsimp only at hq'
  rw [hq, hnone] at hq'
  have hqn : q = none := by
    rw [Option.some.inj hq']
    simp [line2, over]
  subst hqn
  refine ⟨s0, s1, hout, fun st0 st1 coef raw0 raw1 u ord hord => ?_⟩
  refine C56_false_linreg_empty (d := 2) (by norm_num) (by decide) (by omega) v0 v1 (fun e he => ?_) st0 st1 coef raw0 raw1 u ord hord
  rw [C49_lin_range (by omega)]
  have : e.2 ∈ b.map (·.2) := List.mem_map.2 ⟨e, he, rfl⟩
  rw [hb2] at this
  obtain ⟨i, hi, h⟩ := List.mem_map.1 this
  have hi := List.mem_range.1 hi
  obtain ⟨pk, w, b', q1, q2, -, -, -, ho⟩ := linBad_some hb hrc (sixAt g) (hr i hi)
  rw [hbad i hi] at ho
  rw [← h, Option.some.inj ho]
  exact linRow1_refused hb _ (by omega) hy1 hx2 _

/-- The requirements are met: 24 submissions with 4 bits, the draws as in the example of C59; the words drawn for clients 1 and 2 are out of range, the sums
are small, and the line is determined. -/
example : ∃ (t : RootTables) (l : List ℕ) (r : SnipRand), RootCalls (4 :: l) t ∧ ValidRand intModulus lin2 r ∧ (r.g0 : ZMod intModulus) ≠ 0 ∧ r.B ≠ 0 ∧
    Function.Injective plainPrg.aes ∧ plainPrg.pos + 6 * 24 < 2 ^ 64 ∧ 2 ^ 4 ≤ (sixAt plainPrg 1).y0.toNat ∧ 2 ^ (2 * 4) ≤ (sixAt plainPrg 2).x20.toNat ∧
    over (valid countsC 24) (fun i => (badX 4 (sixAt plainPrg) i).toNat ^ 2) < intModulus ∧
    over (valid countsC 24) (fun i => (badY 4 (sixAt plainPrg) i).toNat) < intModulus ∧
    over (valid countsC 24) (fun i => (badX 4 (sixAt plainPrg) i).toNat * (badY 4 (sixAt plainPrg) i).toNat) < intModulus ∧
    over (valid countsC 24) (fun i => (badX 4 (sixAt plainPrg) i).toNat) ^ 2 < 12 * over (valid countsC 24) (fun i => (badX 4 (sixAt plainPrg) i).toNat ^ 2) ∧
    Harmless (.meant (sixKey plainPrg)) spoilC (sixKey plainPrg) 24 (heldD 4 (sixAt plainPrg)) := by
  obtain ⟨t, ht⟩ := C30_sizes (c := lin2) lin2_ok.small [] _ .start
  refine ⟨t, [], ⟨1, 2, [3, 4, 5, 6], 5, 6, 7, [8, 9], 9, 10, 11, 12, 13⟩, ht, ?_, ?_, by decide, plainPrg_injective, by decide, by decide +kernel,
    by decide +kernel, by decide +kernel, by decide +kernel, by decide +kernel, by decide +kernel,
    C80_meant _ (fun _ => C54_length _) 24 spoilC (by decide) (by decide) ((heldD_iff _ _).2 (by simp [spoilC])) ((heldD_iff _ _).2 (by simp [spoilC]))⟩
  · refine ⟨rfl, rfl, ?_, ?_, ?_, ?_⟩ <;> simp only [IsDraw] <;> decide
  · rw [Ne, ZMod.intCast_zmod_eq_zero_iff_dvd]; decide

end Verif

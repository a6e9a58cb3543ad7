import Verif.PropsEndLin
import Verif.PropsFirst
import Verif.PropsViewLin

/-! # C67 for VAR, STDDEV and LINREG -/

namespace Verif

/-! ## Packets -/

section
variable {c : Circuit} (wf : c.WF) {inps w inps' w' : List ℤ} {b b' : Bool} (hev : c.eval intModulus inps = some (w, b))
  (hev' : c.eval intModulus inps' = some (w', b')) {t : RootTables} {l : List ℕ} (hrc : RootCalls (npow2 c.mulGates.length :: l) t)
include wf hev hev' hrc

theorem packet_equiv0 : ∃ e : Draws c ≃ Draws c, ∀ r, ∃ p0 p1 p1', sharePolynomials intModulus c w t r.1 = some (p0, p1) ∧
    sharePolynomials intModulus c w' t (e r).1 = some (p0, p1') := by
  have ht := (C02_tables_after_any_history _ _ hrc).1 _ _ rfl
  have hNpos : 0 < npow2 c.mulGates.length := lt_of_le_of_lt (Nat.zero_le _) (npow2_gt _)
  have hx : Canon 0 intModulus := by simp only [Canon]; decide
  obtain ⟨pre, hpre, -⟩ := checkerPre_ok hNpos ht hx
  obtain ⟨e, he⟩ := view0_equiv wf hev hev' hrc hx hpre (i1 := inps) (i1' := inps') rfl rfl
  refine ⟨e, fun r => ?_⟩
  have h2 := (he r).2.2
  obtain ⟨v, hvw, -⟩ := (views_valid wf hev hrc hx hpre r.2 (i0 := inps) (i1 := inps) rfl rfl).1
  rw [hvw] at h2
  rw [view0, Option.bind_eq_some_iff] at hvw h2
  obtain ⟨pk, hp, h1⟩ := hvw
  obtain ⟨pk', hp', h2⟩ := h2
  rw [Option.map_eq_some_iff] at h1 h2
  obtain ⟨k, -, rfl⟩ := h1
  obtain ⟨k', -, h2⟩ := h2
  rw [Prod.mk.injEq] at h2
  exact ⟨pk.1, pk.2, pk'.2, hp, hp'.trans (congrArg some (Prod.ext h2.1 rfl))⟩

theorem packet_equiv1 : ∃ e : Draws c ≃ Draws c, ∀ r, ∃ p0 p1 p0', sharePolynomials intModulus c w t r.1 = some (p0, p1) ∧
    sharePolynomials intModulus c w' t (e r).1 = some (p0', p1) := by
  have ht := (C02_tables_after_any_history _ _ hrc).1 _ _ rfl
  have hNpos : 0 < npow2 c.mulGates.length := lt_of_le_of_lt (Nat.zero_le _) (npow2_gt _)
  have hx : Canon 0 intModulus := by simp only [Canon]; decide
  obtain ⟨pre, hpre, -⟩ := checkerPre_ok hNpos ht hx
  obtain ⟨e, he⟩ := view1_equiv wf hev hev' hrc hx hpre (i0 := inps) (i0' := inps') rfl rfl
  refine ⟨e, fun r => ?_⟩
  have h2 := (he r).2.2
  obtain ⟨v, hvw, -⟩ := (views_valid wf hev hrc hx hpre r.2 (i0 := inps) (i1 := inps) rfl rfl).2
  rw [hvw] at h2
  rw [view1, Option.bind_eq_some_iff] at hvw h2
  obtain ⟨pk, hp, h1⟩ := hvw
  obtain ⟨pk', hp', h2⟩ := h2
  rw [Option.map_eq_some_iff] at h1 h2
  obtain ⟨k, -, rfl⟩ := h1
  obtain ⟨k', -, h2⟩ := h2
  rw [Prod.mk.injEq] at h2
  exact ⟨pk.1, pk.2, pk'.1, hp, hp'.trans (congrArg some (Prod.ext rfl h2.1))⟩

end

/-! ## VAR and STDDEV -/

theorem var_next (nbits : ℕ) (t : RootTables) (r : SnipRand) (g : Prg) : (varOne nbits t r g).2 = { g with pos := g.pos + 1 + 1 + 1 } := rfl

theorem varOne_same {nbits : ℕ} {t : RootTables} (r : SnipRand) {g g' : Prg} {e : ℕ} (h : Same e g g') (he : g.pos + 2 ≤ e) :
    (varOne nbits t r g').1 = (varOne nbits t r g).1 := by
  obtain ⟨a, b⟩ := h.word (by omega)
  obtain ⟨a', b'⟩ := (h.move (p := g.pos + 1) (by omega)).word (by dsimp only; omega)
  obtain ⟨a2, -⟩ := (h.move (p := g.pos + 1 + 1) (by omega)).word (by dsimp only; omega)
  simp only [varOne, a, b, a', b', a2]
  rfl

theorem varLoop_same (nbits : ℕ) (t : RootTables) : ∀ (rs : List SnipRand) (g g' : Prg), Same (g.pos + 3 * rs.length) g g' →
    varLoop nbits t rs g' = varLoop nbits t rs g
  | [], _, _, _ => rfl
  | r :: rs, g, g', h => by
    rw [List.length_cons] at h
    have hs : Same (g.pos + 3 * (rs.length + 1)) (varOne nbits t r g).2 (varOne nbits t r g').2 := by
      rw [var_next, var_next, h.pos]; exact h.move (by omega)
    have ih := varLoop_same nbits t rs _ _ ⟨hs.pos, hs.next, fun i hi he => hs.blk i hi (by rw [var_next] at he; dsimp only at he; omega), hs.bit⟩
    rw [varLoop, varLoop, varOne_same r h (by omega), ih, hs.pk (by rw [var_next]; dsimp only; omega)]

/-- The bytes of VAR and STDDEV for server 0, after the initial message (see `varClient`). -/
def varStream0 (nbits : ℕ) (t : RootTables) (rs : List SnipRand) (g : Prg) : Option Bytes :=
  (varLoop nbits t rs g).bind fun rows => encVarShares (sent0 rows)

/-- The bytes of VAR and STDDEV for server 1. -/
def varStream1 (nbits : ℕ) (t : RootTables) (rs : List SnipRand) (g : Prg) : Option Bytes :=
  (varLoop nbits t rs g).bind fun rows => encVarShares (sent1 rows)

/-- The first value of one run is `δ` XOR that of the other, the rest of the rows is the same. -/
def VarFirst (δ : U64) (o o' : Option (List (Row U64 SnipRow))) : Prop :=
  ∀ rows, o = some rows → ∃ r r' rest, rows = r :: rest ∧ o' = some (r' :: rest) ∧ r'.real = r.real ^^^ δ

theorem var_two {nbits : ℕ} {t : RootTables} {r r' : SnipRand} {rs : List SnipRand} {g : Prg} {W : ℕ → ℕ → U64} {a a' : U64} {x0 x1 x0' x1' : SnipRow}
    (hc : g.pos + 3 * (rs.length + 1) < 2 ^ 64) (hW : ∀ i h, g.pos + 1 + 1 + 1 ≤ i → W i h = 0#64) (o : (varOne nbits t r g).1 = some (a, x0, x1))
    (o' : (varOne nbits t r' (g.shift W fun _ _ _ => false)).1 = some (a', x0', x1')) :
    ∃ (k : Bytes) (rest : Option (List (Row U64 SnipRow))), varLoop nbits t (r :: rs) g = rest.map (⟨k, a, x0, x1⟩ :: ·) ∧
      varLoop nbits t (r' :: rs) (g.shift W fun _ _ _ => false) = rest.map (⟨k, a', x0', x1'⟩ :: ·) := by
  have hs : Same (g.pos + 3 * (rs.length + 1)) (varOne nbits t r g).2 (varOne nbits t r' (g.shift W fun _ _ _ => false)).2 := by
    rw [var_next, var_next]
    exact ⟨rfl, rfl, fun i (hi : g.pos + 1 + 1 + 1 ≤ i) he => blk_same (E := fun _ _ _ => false) (by omega) (hW i 0 hi) (hW i 1 hi),
      fun p k i _ => Bool.xor_false _⟩
  have hl := varLoop_same nbits t rs _ _ ⟨hs.pos, hs.next, fun i hi he => hs.blk i hi (by rw [var_next] at he; dsimp only at he; omega), hs.bit⟩
  have hk := hs.pk (by rw [var_next]; dsimp only; omega)
  refine ⟨makePk (varOne nbits t r g).2, varLoop nbits t rs (varOne nbits t r g).2, ?_, ?_⟩
  · rw [varLoop, o, Option.bind_some]
  · rw [varLoop, o', Option.bind_some, hl, hk]

theorem var_first {δ a a' : U64} {x0 x1 x0' x1' : SnipRow} {k : Bytes} {rest : Option (List (Row U64 SnipRow))} {o o' : Option (List (Row U64 SnipRow))}
    (h : o = rest.map (⟨k, a, x0, x1⟩ :: ·)) (h' : o' = rest.map (⟨k, a', x0', x1'⟩ :: ·)) (ha : a' = a ^^^ δ) : VarFirst δ o o' := by
  intro rows hr
  rw [h, Option.map_eq_some_iff] at hr
  obtain ⟨l, rfl, rfl⟩ := hr
  exact ⟨_, _, l, rfl, h', ha⟩

/-- C67 for VAR and STDDEV, server 0: bijections of the draws of the generator and of the draws of FLINT for the first packet. -/
theorem C67_var_server0 {nbits : ℕ} (hb : nbits ≤ 31) {t : RootTables} {l : List ℕ} (hrc : RootCalls (2 :: l) t) (n : ℕ) {δ : U64} (hδ : δ.toNat < 2 ^ nbits) :
    ∃ σ : Prg ≃ Prg, Redraw σ ∧ ∀ g : Prg, g.pos + 3 * (n + 1) < 2 ^ 64 → ∃ e : Draws varCircuit ≃ Draws varCircuit,
      ∀ (r : Draws varCircuit) (rs : List SnipRand), rs.length = n →
        varStream0 nbits t ((e r).1 :: rs) (σ g) = varStream0 nbits t (r.1 :: rs) g ∧
        VarFirst δ (varLoop nbits t (r.1 :: rs) g) (varLoop nbits t ((e r).1 :: rs) (σ g)) := by
  obtain ⟨σ, hσ, eσ⟩ := shift_blocks (fun g => seg g.pos 1 fun _ => δ) fun g => rfl
  refine ⟨σ, hσ, fun g hc => ?_⟩
  rw [eσ g]
  have w0 : (g.shift (seg g.pos 1 fun _ => δ) fun _ _ _ => false).wordAt g.pos 0 = g.wordAt g.pos 0 ^^^ δ := by
    rw [wordAt_shift (by omega), seg_hit (j := 0) (by omega)]
  have w1 : ∀ p, g.pos < p → p < 2 ^ 64 → (g.shift (seg g.pos 1 fun _ => δ) fun _ _ _ => false).wordAt p 0 = g.wordAt p 0 := fun p h1 h2 => by
    rw [wordAt_shift (by omega), seg_miss (by omega)]
    exact BitVec.xor_zero
  obtain ⟨w, hw, cw⟩ := clientVar_wires hb (g.wordAt g.pos 0)
  obtain ⟨w', hw', cw'⟩ := clientVar_wires hb (g.wordAt g.pos 0 ^^^ δ)
  obtain ⟨e, he⟩ := packet_equiv0 varCircuit_ok.wf hw hw' hrc
  refine ⟨e, fun r rs hn => ?_⟩
  obtain ⟨p0, p1, p1', s, s'⟩ := he r
  obtain ⟨k, rest, h, h'⟩ := var_two (rs := rs) (W := seg g.pos 1 fun _ => δ) (by rw [hn]; exact hc) (fun i h hi => seg_miss (by omega))
    (show (varOne nbits t r.1 g).1 = _ from (cw (g.wordAt (g.pos + 1) 0) (g.wordAt (g.pos + 1 + 1) 0) t r.1).trans (by rw [s, Option.map_some]))
    (show (varOne nbits t (e r).1 _).1 = _ from by
      have := cw' (g.wordAt (g.pos + 1) 0) (g.wordAt (g.pos + 1 + 1) 0) t (e r).1
      rw [s', Option.map_some, ← w0, ← w1 _ (by omega) (by omega), ← w1 (g.pos + 1 + 1) (by omega) (by omega)] at this
      exact this)
  constructor
  · unfold varStream0
    rw [h, h', w1 (g.pos + 1) (by omega) (by omega), w1 (g.pos + 1 + 1) (by omega) (by omega)]
    cases rest <;> rfl
  · refine var_first h h' ?_
    rw [w0]
    exact xor_mod_shl (by omega) _ _ hδ

/-- C67 for VAR and STDDEV, server 1. -/
theorem C67_var_server1 {nbits : ℕ} (hb : nbits ≤ 31) {t : RootTables} {l : List ℕ} (hrc : RootCalls (2 :: l) t) (n : ℕ) {δ : U64} (hδ : δ.toNat < 2 ^ nbits) :
    ∃ σ : Prg ≃ Prg, Redraw σ ∧ ∀ g : Prg, g.pos + 3 * (n + 1) < 2 ^ 64 → ∃ e : Draws varCircuit ≃ Draws varCircuit,
      ∀ (r : Draws varCircuit) (rs : List SnipRand), rs.length = n →
        varStream1 nbits t ((e r).1 :: rs) (σ g) = varStream1 nbits t (r.1 :: rs) g ∧
        VarFirst δ (varLoop nbits t (r.1 :: rs) g) (varLoop nbits t ((e r).1 :: rs) (σ g)) := by
  let q : U64 → U64 := fun a => (a % (1#64 <<< nbits)) * (a % (1#64 <<< nbits))
  let D : Prg → U64 := fun g => if g.pos + 3 < 2 ^ 64 then q (g.wordAt g.pos 0) ^^^ q (g.wordAt g.pos 0 ^^^ δ) else 0#64
  let W : Prg → ℕ → ℕ → U64 := fun g i h =>
    seg g.pos 1 (fun _ => δ) i h ^^^ seg (g.pos + 1) 1 (fun _ => δ) i h ^^^ seg (g.pos + 1 + 1) 1 (fun _ => D g) i h
  have w0 : ∀ g : Prg, g.pos + 3 < 2 ^ 64 → (g.shift (W g) fun _ _ _ => false).wordAt g.pos 0 = g.wordAt g.pos 0 ^^^ δ := fun g hc => by
    rw [wordAt_shift (by omega)]
    simp only [W]
    rw [seg_hit (j := 0) (by omega), seg_miss (by omega), seg_miss (by omega), BitVec.xor_zero, BitVec.xor_zero]
  have w1 : ∀ g : Prg, g.pos + 3 < 2 ^ 64 → (g.shift (W g) fun _ _ _ => false).wordAt (g.pos + 1) 0 = g.wordAt (g.pos + 1) 0 ^^^ δ := fun g hc => by
    rw [wordAt_shift (by omega)]
    simp only [W]
    rw [seg_miss (by omega), seg_hit (j := 0) (by omega), seg_miss (by omega), BitVec.xor_zero, BitVec.zero_xor]
  have w2 : ∀ g : Prg, g.pos + 3 < 2 ^ 64 → (g.shift (W g) fun _ _ _ => false).wordAt (g.pos + 1 + 1) 0 = g.wordAt (g.pos + 1 + 1) 0 ^^^ D g := fun g hc => by
    rw [wordAt_shift (by omega)]
    simp only [W]
    rw [seg_miss (by omega), seg_miss (by omega), seg_hit (j := 0) (by omega), BitVec.xor_zero, BitVec.zero_xor]
  obtain ⟨σ, hσ, eσ⟩ := shift_blocks W fun g => by
    have hD : D (g.shift (W g) fun _ _ _ => false) = D g := by
      simp only [D]
      show (if g.pos + 3 < 2 ^ 64 then q ((g.shift (W g) _).wordAt g.pos 0) ^^^ q ((g.shift (W g) _).wordAt g.pos 0 ^^^ δ) else _) = _
      split
      · rename_i hc
        rw [w0 g hc, BitVec.xor_assoc, BitVec.xor_self, BitVec.xor_zero, BitVec.xor_comm]
      · rfl
    funext i h
    show seg g.pos 1 (fun _ => δ) i h ^^^ seg (g.pos + 1) 1 (fun _ => δ) i h ^^^ seg (g.pos + 1 + 1) 1 (fun _ => D (g.shift (W g) _)) i h = _
    rw [hD]
  refine ⟨σ, hσ, fun g hc => ?_⟩
  rw [eσ g]
  have hc' : g.pos + 3 < 2 ^ 64 := by omega
  replace w0 := w0 g hc'
  replace w1 := w1 g hc'
  replace w2 := w2 g hc'
  have hD : D g = q (g.wordAt g.pos 0) ^^^ q (g.wordAt g.pos 0 ^^^ δ) := if_pos hc'
  obtain ⟨w, hw, cw⟩ := clientVar_wires hb (g.wordAt g.pos 0)
  obtain ⟨w', hw', cw'⟩ := clientVar_wires hb (g.wordAt g.pos 0 ^^^ δ)
  obtain ⟨e, he⟩ := packet_equiv1 varCircuit_ok.wf hw hw' hrc
  refine ⟨e, fun r rs hn => ?_⟩
  obtain ⟨p0, p1, p0', s, s'⟩ := he r
  obtain ⟨k, rest, h, h'⟩ := var_two (rs := rs) (W := W g) (by rw [hn]; exact hc) (fun i h hi => by
      simp only [W]
      rw [seg_miss (by omega), seg_miss (by omega), seg_miss (by omega), BitVec.xor_zero, BitVec.xor_zero])
    (show (varOne nbits t r.1 g).1 = _ from (cw (g.wordAt (g.pos + 1) 0) (g.wordAt (g.pos + 1 + 1) 0) t r.1).trans (by rw [s, Option.map_some]))
    (show (varOne nbits t (e r).1 _).1 = _ from by
      have := cw' (g.wordAt (g.pos + 1) 0 ^^^ δ) (g.wordAt (g.pos + 1 + 1) 0 ^^^ D g) t (e r).1
      rw [s', Option.map_some, ← w0, ← w1, ← w2] at this
      exact this)
  have lt1 : ∀ a : U64, (a % (1#64 <<< nbits)).toNat < 2 ^ nbits := fun a => by
    rw [mod_shl (by omega)]; exact Nat.mod_lt _ (pow_pos (by norm_num) _)
  have lt2 : ∀ a : U64, (q a).toNat < 2 ^ (2 * nbits) := fun a => by
    simp only [q]
    rw [BitVec.toNat_mul]
    refine lt_of_le_of_lt (Nat.mod_le _ _ : _ ≤ (a % (1#64 <<< nbits)).toNat * (a % (1#64 <<< nbits)).toNat) ?_
    rw [two_mul, pow_add]
    exact Nat.mul_lt_mul'' (lt1 a) (lt1 a)
  have hmm : (1#64 <<< nbits : U64) * (1#64 <<< nbits) = 1#64 <<< (2 * nbits) := by
    apply BitVec.eq_of_toNat_eq
    rw [BitVec.toNat_mul, shl_toNat (by omega), shl_toNat (by omega), ← pow_add, ← two_mul, Nat.mod_eq_of_lt]
    exact Nat.pow_lt_pow_right (by omega) (by omega)
  have same : varVals1 nbits (g.wordAt g.pos 0 ^^^ δ) (g.wordAt (g.pos + 1) 0 ^^^ δ) (g.wordAt (g.pos + 1 + 1) 0 ^^^ D g) =
      varVals1 nbits (g.wordAt g.pos 0) (g.wordAt (g.pos + 1) 0) (g.wordAt (g.pos + 1 + 1) 0) := by
    unfold varVals1
    rw [hmm, xor_mod_shl (by omega) _ δ hδ, xor_mod_shl (by omega) _ (D g) (by
      rw [hD, BitVec.toNat_xor]; exact Nat.xor_lt_two_pow (lt2 _) (lt2 _))]
    have e1 : (g.wordAt g.pos 0 ^^^ δ) % (1#64 <<< nbits) = g.wordAt g.pos 0 % (1#64 <<< nbits) ^^^ δ := xor_mod_shl (by omega) _ δ hδ
    have e2 : ∀ a b : U64, a ^^^ δ ^^^ (b ^^^ δ) = a ^^^ b := fun a b => by
      rw [BitVec.xor_comm b, ← BitVec.xor_assoc, BitVec.xor_assoc a, BitVec.xor_self, BitVec.xor_zero]
    rw [hD]
    simp only [q]
    rw [xor_cancel_mid, e1, e2]
  constructor
  · unfold varStream1
    rw [h, h', w0, w1, w2, same]
    cases rest <;> rfl
  · refine var_first h h' ?_
    rw [w0]
    exact xor_mod_shl (by omega) _ _ hδ

/-! ## LINREG -/

/-- Positions of the six calls of `random_data` for one submission of LINREG. -/
def linPlace (d p : ℕ) : Fin 6 → ℕ
  | 0 => p
  | 1 => p + (d - 1 + 1) / 2
  | 2 => p + (d - 1 + 1) / 2 + (d - 1 + 1) / 2
  | 3 => p + (d - 1 + 1) / 2 + (d - 1 + 1) / 2 + (numQuad d + 1) / 2
  | 4 => p + (d - 1 + 1) / 2 + (d - 1 + 1) / 2 + (numQuad d + 1) / 2 + (d - 1 + 1) / 2
  | 5 => p + (d - 1 + 1) / 2 + (d - 1 + 1) / 2 + (numQuad d + 1) / 2 + (d - 1 + 1) / 2 + 1

/-- The draws for the features. -/
def linX (d : ℕ) (g : Prg) : List U64 := (List.range (d - 1)).map (g.wordAt (linPlace d g.pos 0))

/-- The draws for the shares, in the order of the fields. -/
def linS (d : ℕ) (g : Prg) (j : ℕ) : U64 :=
  if j < d - 1 then g.wordAt (linPlace d g.pos 1) j else if j = d - 1 then g.wordAt (linPlace d g.pos 5) 0
  else if j < d + numQuad d then g.wordAt (linPlace d g.pos 2) (j - d) else g.wordAt (linPlace d g.pos 3) (j - (d + numQuad d))

theorem linDraws_eq {d : ℕ} (hd : 1 ≤ d) (g : Prg) : linDraws d g =
    (linMk d (linX d g) (g.wordAt (linPlace d g.pos 4) 0) (linS d g), { g with pos := g.pos + linBlocks d }) := by
  have e1 : (List.range (d - 1)).map (linS d g) = (List.range (d - 1)).map (g.wordAt (linPlace d g.pos 1)) :=
    List.map_congr_left fun j hj => if_pos (List.mem_range.1 hj)
  have e2 : (List.range (numQuad d)).map (fun j => linS d g (d + j)) = (List.range (numQuad d)).map (g.wordAt (linPlace d g.pos 2)) :=
    List.map_congr_left fun j hj => by
      have := List.mem_range.1 hj
      rw [linS, if_neg (by omega), if_neg (by omega), if_pos (by omega), Nat.add_sub_cancel_left]
  have e3 : (List.range (d - 1)).map (fun j => linS d g (d + numQuad d + j)) = (List.range (d - 1)).map (g.wordAt (linPlace d g.pos 3)) :=
    List.map_congr_left fun j hj => by rw [linS, if_neg (by omega), if_neg (by omega), if_neg (by omega), Nat.add_sub_cancel_left]
  have e4 : linS d g (d - 1) = g.wordAt (linPlace d g.pos 5) 0 := by rw [linS, if_neg (by omega), if_pos rfl]
  have e5 : g.pos + linBlocks d =
      g.pos + (d - 1 + 1) / 2 + (d - 1 + 1) / 2 + (numQuad d + 1) / 2 + (d - 1 + 1) / 2 + 1 + 1 := by unfold linBlocks; omega
  rw [linMk, e1, e2, e3, e4, e5]
  rfl

theorem linDraws_same {d : ℕ} (hd : 1 ≤ d) {g g' : Prg} {e : ℕ} (h : Same e g g') (he : g.pos + linBlocks d ≤ e + 1) :
    (linDraws d g').1 = (linDraws d g).1 := by
  have hb : linBlocks d = 3 * ((d - 1 + 1) / 2) + (numQuad d + 1) / 2 + 2 := rfl
  have hw : ∀ (i : Fin 6) (k j : ℕ), j < k → g.pos ≤ linPlace d g.pos i → linPlace d g.pos i + (k + 1) / 2 ≤ e + 1 →
      g'.wordAt (linPlace d g.pos i) j = g.wordAt (linPlace d g.pos i) j := fun i k j hj h1 h2 => h.wordAt h1 (by omega)
  have h0 : linX d g' = linX d g := by
    unfold linX; rw [h.pos]
    exact List.map_congr_left fun j hj => hw 0 (d - 1) j (List.mem_range.1 hj) (by simp only [linPlace]; omega) (by simp only [linPlace]; omega)
  have h4 : g'.wordAt (linPlace d g.pos 4) 0 = g.wordAt (linPlace d g.pos 4) 0 := hw 4 1 0 (by omega) (by simp only [linPlace]; omega) (by simp only [linPlace]; omega)
  have hS : ∀ j, j < d + numQuad d + (d - 1) → linS d g' j = linS d g j := fun j hj => by
    unfold linS; rw [h.pos]
    split_ifs with a b c
    · exact hw 1 (d - 1) j a (by simp only [linPlace]; omega) (by simp only [linPlace]; omega)
    · exact hw 5 1 0 (by omega) (by simp only [linPlace]; omega) (by simp only [linPlace]; omega)
    · exact hw 2 (numQuad d) _ (by omega) (by simp only [linPlace]; omega) (by simp only [linPlace]; omega)
    · exact hw 3 (d - 1) _ (by omega) (by simp only [linPlace]; omega) (by simp only [linPlace]; omega)
  rw [linDraws_eq hd, linDraws_eq hd, h0, h.pos, h4]
  simp only [linMk, LinDraws.mk.injEq, true_and]
  refine ⟨?_, ?_, ?_, hS _ (by omega)⟩ <;> refine List.map_congr_left fun j hj => hS _ ?_ <;> have := List.mem_range.1 hj <;> omega

theorem linLoop_same {d : ℕ} (hd : 1 ≤ d) (nbits : ℕ) (t : RootTables) : ∀ (rs : List SnipRand) (g g' : Prg), Same (g.pos + linBlocks d * rs.length) g g' →
    linLoop d nbits t rs g' = linLoop d nbits t rs g
  | [], _, _, _ => rfl
  | r :: rs, g, g', h => by
    rw [List.length_cons, Nat.mul_succ] at h
    have hs : Same (g.pos + (linBlocks d * rs.length + linBlocks d)) (linDraws d g).2 (linDraws d g').2 := by
      rw [linDraws_eq hd, linDraws_eq hd, h.pos]; exact h.move (by omega)
    have hp : (linDraws d g).2.pos = g.pos + linBlocks d := by rw [linDraws_eq hd]
    have ih := linLoop_same hd nbits t rs _ _ ⟨hs.pos, hs.next, fun i hi he => hs.blk i hi (by rw [hp] at he; omega), hs.bit⟩
    rw [linLoop, linLoop, linDraws_same hd h (by omega), ih, hs.pk (by rw [hp]; omega)]

/-- The bytes of LINREG for server 0, after the initial message (see `linClient`). -/
def linStream0 (d nbits : ℕ) (t : RootTables) (rs : List SnipRand) (g : Prg) : Option Bytes :=
  (linLoop d nbits t rs g).bind fun rows => encLinShares d (sent0 rows)

/-- The bytes of LINREG for server 1. -/
def linStream1 (d nbits : ℕ) (t : RootTables) (rs : List SnipRand) (g : Prg) : Option Bytes :=
  (linLoop d nbits t rs g).bind fun rows => encLinShares d (sent1 rows)

/-- The draws for the features and the label of the first submission of one run are those of the other XOR `δx` and `δy`, the rest of the rows
is the same. -/
def LinFirst (d : ℕ) (δx : ℕ → U64) (δy : U64) (o o' : Option (List (Row LinDraws LinRow))) : Prop :=
  ∀ rows, o = some rows → ∃ r r' rest, rows = r :: rest ∧ o' = some (r' :: rest) ∧
    r'.real.xReal = (List.range (d - 1)).map (fun j => r.real.xReal.getD j 0#64 ^^^ δx j) ∧ r'.real.yReal = r.real.yReal ^^^ δy

theorem lin_two {d : ℕ} (hd : 1 ≤ d) {nbits : ℕ} {t : RootTables} {r r' : SnipRand} {rs : List SnipRand} {g : Prg} {W : ℕ → ℕ → U64}
    {x0 x1 x0' x1' : LinRow} (hc : g.pos + linBlocks d * (rs.length + 1) < 2 ^ 64) (hW : ∀ i h, g.pos + linBlocks d ≤ i → W i h = 0#64)
    (o : clientLin d nbits (linDraws d g).1 t r = some (x0, x1))
    (o' : clientLin d nbits (linDraws d (g.shift W fun _ _ _ => false)).1 t r' = some (x0', x1')) :
    ∃ (k : Bytes) (rest : Option (List (Row LinDraws LinRow))), linLoop d nbits t (r :: rs) g = rest.map (⟨k, (linDraws d g).1, x0, x1⟩ :: ·) ∧
      linLoop d nbits t (r' :: rs) (g.shift W fun _ _ _ => false) =
        rest.map (⟨k, (linDraws d (g.shift W fun _ _ _ => false)).1, x0', x1'⟩ :: ·) := by
  rw [Nat.mul_succ] at hc
  have hp : (linDraws d g).2.pos = g.pos + linBlocks d := by rw [linDraws_eq hd]
  have hs : Same (g.pos + (linBlocks d * rs.length + linBlocks d)) (linDraws d g).2 (linDraws d (g.shift W fun _ _ _ => false)).2 := by
    rw [linDraws_eq hd, linDraws_eq hd]
    exact ⟨rfl, rfl, fun i (hi : g.pos + linBlocks d ≤ i) he => blk_same (E := fun _ _ _ => false) (by omega) (hW i 0 hi) (hW i 1 hi),
      fun p k i _ => Bool.xor_false _⟩
  have hl := linLoop_same hd nbits t rs _ _ ⟨hs.pos, hs.next, fun i hi he => hs.blk i hi (by rw [hp] at he; omega), hs.bit⟩
  have hk := hs.pk (by rw [hp]; omega)
  refine ⟨makePk (linDraws d g).2, linLoop d nbits t rs (linDraws d g).2, ?_, ?_⟩
  · rw [linLoop, o, Option.bind_some]
  · rw [linLoop, o', Option.bind_some, hl, hk]

theorem lin_first {d : ℕ} {δx : ℕ → U64} {δy : U64} {a a' : LinDraws} {x0 x1 x0' x1' : LinRow} {k : Bytes}
    {rest o o' : Option (List (Row LinDraws LinRow))} (h : o = rest.map (⟨k, a, x0, x1⟩ :: ·)) (h' : o' = rest.map (⟨k, a', x0', x1'⟩ :: ·))
    (hx : a'.xReal = (List.range (d - 1)).map (fun j => a.xReal.getD j 0#64 ^^^ δx j)) (hy : a'.yReal = a.yReal ^^^ δy) : LinFirst d δx δy o o' := by
  intro rows hr
  rw [h, Option.map_eq_some_iff] at hr
  obtain ⟨l, rfl, rfl⟩ := hr
  exact ⟨_, _, l, rfl, h', hx, hy⟩

/-- The features with the change. -/
def xorX (d : ℕ) (x : List U64) (δx : ℕ → U64) : List U64 := (List.range (d - 1)).map fun j => x.getD j 0#64 ^^^ δx j

theorem linX_getD {d : ℕ} {g : Prg} {j : ℕ} (hj : j < d - 1) : (linX d g).getD j 0#64 = g.wordAt (linPlace d g.pos 0) j := by
  simp [linX, List.getD_eq_getElem?_getD, hj]

/-- C67 for LINREG, server 0: features and label change by any words. -/
theorem C67_lin_server0 {d : ℕ} (hd : 1 ≤ d) (hsm : linMul d < 2 ^ 18) {nbits : ℕ} (hb : nbits ≤ 31) {c : Circuit}
    (hcc : checkLinReg intModulus d = some c) {t : RootTables} {l : List ℕ} (hrc : RootCalls (npow2 (linMul d) :: l) t) (n : ℕ) (δx : ℕ → U64) (δy : U64) :
    ∃ σ : Prg ≃ Prg, Redraw σ ∧ ∀ g : Prg, g.pos + linBlocks d * (n + 1) < 2 ^ 64 → ∃ e : Draws c ≃ Draws c,
      ∀ (r : Draws c) (rs : List SnipRand), rs.length = n →
        linStream0 d nbits t ((e r).1 :: rs) (σ g) = linStream0 d nbits t (r.1 :: rs) g ∧
        LinFirst d δx δy (linLoop d nbits t (r.1 :: rs) g) (linLoop d nbits t ((e r).1 :: rs) (σ g)) := by
  have hbl : linBlocks d = 3 * ((d - 1 + 1) / 2) + (numQuad d + 1) / 2 + 2 := rfl
  obtain ⟨c', e', hcok, hmul, -⟩ := linCircuit hd hsm
  rw [hcc] at e'; cases e'
  obtain ⟨σ, hσ, eσ⟩ := shift_blocks (fun g i h => seg (linPlace d g.pos 0) (d - 1) δx i h ^^^ seg (linPlace d g.pos 4) 1 (fun _ => δy) i h) fun g => rfl
  refine ⟨σ, hσ, fun g hc => ?_⟩
  rw [eσ g]
  have hc1 : linBlocks d * (n + 1) = linBlocks d * n + linBlocks d := Nat.mul_succ _ _
  set W : ℕ → ℕ → U64 := fun i h => seg (linPlace d g.pos 0) (d - 1) δx i h ^^^ seg (linPlace d g.pos 4) 1 (fun _ => δy) i h with hW
  set g' := g.shift W fun _ _ _ => false with hg'
  have hp : g'.pos = g.pos := rfl
  have w0 : linX d g' = xorX d (linX d g) δx := by
    refine List.map_congr_left fun j hj => ?_
    have hj := List.mem_range.1 hj
    rw [linX_getD hj, hp, hg', wordAt_shift (by simp only [linPlace]; omega), hW]
    dsimp only
    rw [seg_hit hj, seg_miss (by simp only [linPlace]; omega), BitVec.xor_zero]
  have w4 : g'.wordAt (linPlace d g.pos 4) 0 = g.wordAt (linPlace d g.pos 4) 0 ^^^ δy := by
    rw [hg', wordAt_shift (by simp only [linPlace]; omega), hW]
    dsimp only
    rw [seg_miss (by simp only [linPlace]; omega), seg_hit (j := 0) (by omega), BitVec.zero_xor]
  have wS : ∀ j < d + numQuad d + (d - 1), linS d g' j = linS d g j := fun j hj => by
    have miss : ∀ (i : Fin 6) (k j : ℕ), j < k → linPlace d g.pos 1 ≤ linPlace d g.pos i → linPlace d g.pos i + (k + 1) / 2 ≤ 2 ^ 64 →
        (linPlace d g.pos i + (k + 1) / 2 ≤ linPlace d g.pos 4 ∨ linPlace d g.pos 5 ≤ linPlace d g.pos i) →
        g'.wordAt (linPlace d g.pos i) j = g.wordAt (linPlace d g.pos i) j := fun i k j hj h1 h2 h3 => by
      have e1 : linPlace d g.pos 1 = linPlace d g.pos 0 + (d - 1 + 1) / 2 := rfl
      have e5 : linPlace d g.pos 5 = linPlace d g.pos 4 + 1 := rfl
      rw [hg', wordAt_shift (by omega), hW]
      dsimp only
      rw [seg_miss (by omega), seg_miss (by omega), BitVec.xor_zero]
      exact BitVec.xor_zero
    unfold linS; rw [hp]
    split_ifs with a b c
    · exact miss 1 (d - 1) j a le_rfl (by simp only [linPlace]; omega) (.inl (by simp only [linPlace]; omega))
    · exact miss 5 1 0 (by omega) (by simp only [linPlace]; omega) (by simp only [linPlace]; omega) (.inr le_rfl)
    · exact miss 2 (numQuad d) _ (by omega) (by simp only [linPlace]; omega) (by simp only [linPlace]; omega) (.inl (by simp only [linPlace]; omega))
    · exact miss 3 (d - 1) _ (by omega) (by simp only [linPlace]; omega) (by simp only [linPlace]; omega) (.inl (by simp only [linPlace]; omega))
  have dr : (linDraws d g).1 = linMk d (linX d g) (g.wordAt (linPlace d g.pos 4) 0) (linS d g) := by rw [linDraws_eq hd]
  have dr' : (linDraws d g').1 = linMk d (xorX d (linX d g) δx) (g.wordAt (linPlace d g.pos 4) 0 ^^^ δy) (linS d g) := by
    rw [linDraws_eq hd, w0, hp, w4]
    simp only [linMk, LinDraws.mk.injEq, true_and]
    refine ⟨?_, ?_, ?_, wS _ (by omega)⟩ <;> refine List.map_congr_left fun j hj => wS _ ?_ <;> have := List.mem_range.1 hj <;> omega
  obtain ⟨w, hw⟩ := lin_wires hd hsm hb hcc (linX d g) (by simp [linX]) (g.wordAt (linPlace d g.pos 4) 0)
  obtain ⟨w', hw'⟩ := lin_wires hd hsm hb hcc (xorX d (linX d g) δx) (by simp [xorX]) (g.wordAt (linPlace d g.pos 4) 0 ^^^ δy)
  obtain ⟨e, he⟩ := packet_equiv0 hcok.wf hw.eval hw'.eval (by rw [hmul]; exact hrc)
  refine ⟨e, fun r rs hn => ?_⟩
  obtain ⟨p0, p1, p1', s, s'⟩ := he r
  have o := hw.client (linS d g) t r.1
  have o' := hw'.client (linS d g) t (e r).1
  rw [s, Option.map_some, ← dr] at o
  rw [s', Option.map_some, ← dr'] at o'
  obtain ⟨k, rest, h, h'⟩ := lin_two hd (rs := rs) (W := W) (by rw [hn]; exact hc) (fun i h hi => by
      rw [hW]; dsimp only
      rw [seg_miss (by simp only [linPlace]; omega), seg_miss (by simp only [linPlace]; omega), BitVec.xor_zero]) o o'
  constructor
  · unfold linStream0
    rw [h, h']
    have : linRow0 nbits (linDraws d g').1 p0 = linRow0 nbits (linDraws d g).1 p0 := by rw [dr, dr']; rfl
    cases rest
    · rfl
    · simp only [Option.map_some, Option.bind_some, sent0, List.map_cons, this]
  · refine lin_first h h' ?_ ?_
    · rw [dr, dr']; rfl
    · rw [dr, dr']; rfl

theorem xorX_twice {d : ℕ} {x : List U64} (hx : x.length = d - 1) (δx : ℕ → U64) : xorX d (xorX d x δx) δx = x := by
  apply List.ext_getElem
  · simp [xorX, hx]
  · intro j h1 h2
    have hj : j < d - 1 := by omega
    simp only [xorX, List.getElem_map, List.getElem_range, List.getD_eq_getElem?_getD]
    rw [List.getElem?_eq_getElem (by simpa using hj)]
    simp [BitVec.xor_assoc, h2]

theorem linShift_comm (d nbits : ℕ) (x x' : List U64) (y y' : U64) (j : ℕ) : linShift d nbits x x' y y' j = linShift d nbits x' x y' y j := by
  simp only [linShift]
  split_ifs <;> exact BitVec.xor_comm _ _

/-- C67 for LINREG, server 1. -/
theorem C67_lin_server1 {d : ℕ} (hd : 1 ≤ d) (hsm : linMul d < 2 ^ 18) {nbits : ℕ} (hb : nbits ≤ 31) {c : Circuit}
    (hcc : checkLinReg intModulus d = some c) {t : RootTables} {l : List ℕ} (hrc : RootCalls (npow2 (linMul d) :: l) t) (n : ℕ) (δx : ℕ → U64) (δy : U64) :
    ∃ σ : Prg ≃ Prg, Redraw σ ∧ ∀ g : Prg, g.pos + linBlocks d * (n + 1) < 2 ^ 64 → ∃ e : Draws c ≃ Draws c,
      ∀ (r : Draws c) (rs : List SnipRand), rs.length = n →
        linStream1 d nbits t ((e r).1 :: rs) (σ g) = linStream1 d nbits t (r.1 :: rs) g ∧
        LinFirst d δx δy (linLoop d nbits t (r.1 :: rs) g) (linLoop d nbits t ((e r).1 :: rs) (σ g)) := by
  have hbl : linBlocks d = 3 * ((d - 1 + 1) / 2) + (numQuad d + 1) / 2 + 2 := rfl
  obtain ⟨c', e', hcok, hmul, -⟩ := linCircuit hd hsm
  rw [hcc] at e'; cases e'
  let L : Prg → ℕ → U64 := fun g j => if g.pos + linBlocks d < 2 ^ 64 then
    linShift d nbits (linX d g) (xorX d (linX d g) δx) (g.wordAt (linPlace d g.pos 4) 0) (g.wordAt (linPlace d g.pos 4) 0 ^^^ δy) j else 0#64
  let W : Prg → ℕ → ℕ → U64 := fun g i h =>
    seg (linPlace d g.pos 0) (d - 1) δx i h ^^^ seg (linPlace d g.pos 4) 1 (fun _ => δy) i h ^^^ seg (linPlace d g.pos 1) (d - 1) (L g) i h ^^^
    seg (linPlace d g.pos 5) 1 (fun _ => L g (d - 1)) i h ^^^ seg (linPlace d g.pos 2) (numQuad d) (fun j => L g (d + j)) i h ^^^
    seg (linPlace d g.pos 3) (d - 1) (fun j => L g (d + numQuad d + j)) i h
  have h0 : ∀ g : Prg, g.pos + linBlocks d < 2 ^ 64 → ∀ j < d - 1, (g.shift (W g) fun _ _ _ => false).wordAt (linPlace d g.pos 0) j =
      g.wordAt (linPlace d g.pos 0) j ^^^ δx j := fun g hc j hj => by
    rw [wordAt_shift (by simp only [linPlace]; omega)]
    simp only [W]
    rw [seg_hit hj, seg_miss (by simp only [linPlace]; omega), seg_miss (by simp only [linPlace]; omega), seg_miss (by simp only [linPlace]; omega), seg_miss (by simp only [linPlace]; omega), seg_miss (by simp only [linPlace]; omega)]
    simp only [BitVec.xor_zero]
  have h4 : ∀ g : Prg, g.pos + linBlocks d < 2 ^ 64 → (g.shift (W g) fun _ _ _ => false).wordAt (linPlace d g.pos 4) 0 =
      g.wordAt (linPlace d g.pos 4) 0 ^^^ δy := fun g hc => by
    rw [wordAt_shift (by simp only [linPlace]; omega)]
    simp only [W]
    rw [seg_miss (by simp only [linPlace]; omega), seg_hit (j := 0) (by omega), seg_miss (by simp only [linPlace]; omega), seg_miss (by simp only [linPlace]; omega), seg_miss (by simp only [linPlace]; omega), seg_miss (by simp only [linPlace]; omega)]
    simp only [BitVec.xor_zero, BitVec.zero_xor]
  have h1 : ∀ g : Prg, g.pos + linBlocks d < 2 ^ 64 → ∀ j < d - 1, (g.shift (W g) fun _ _ _ => false).wordAt (linPlace d g.pos 1) j =
      g.wordAt (linPlace d g.pos 1) j ^^^ L g j := fun g hc j hj => by
    rw [wordAt_shift (by simp only [linPlace]; omega)]
    simp only [W]
    rw [seg_miss (by simp only [linPlace]; omega), seg_miss (by simp only [linPlace]; omega), seg_hit hj, seg_miss (by simp only [linPlace]; omega), seg_miss (by simp only [linPlace]; omega), seg_miss (by simp only [linPlace]; omega)]
    simp only [BitVec.xor_zero, BitVec.zero_xor]
  have h5 : ∀ g : Prg, g.pos + linBlocks d < 2 ^ 64 → (g.shift (W g) fun _ _ _ => false).wordAt (linPlace d g.pos 5) 0 =
      g.wordAt (linPlace d g.pos 5) 0 ^^^ L g (d - 1) := fun g hc => by
    rw [wordAt_shift (by simp only [linPlace]; omega)]
    simp only [W]
    rw [seg_miss (by simp only [linPlace]; omega), seg_miss (by simp only [linPlace]; omega), seg_miss (by simp only [linPlace]; omega), seg_hit (j := 0) (by omega), seg_miss (by simp only [linPlace]; omega), seg_miss (by simp only [linPlace]; omega)]
    simp only [BitVec.xor_zero, BitVec.zero_xor]
  have h2 : ∀ g : Prg, g.pos + linBlocks d < 2 ^ 64 → ∀ j < numQuad d, (g.shift (W g) fun _ _ _ => false).wordAt (linPlace d g.pos 2) j =
      g.wordAt (linPlace d g.pos 2) j ^^^ L g (d + j) := fun g hc j hj => by
    rw [wordAt_shift (by simp only [linPlace]; omega)]
    simp only [W]
    rw [seg_miss (by simp only [linPlace]; omega), seg_miss (by simp only [linPlace]; omega), seg_miss (by simp only [linPlace]; omega), seg_miss (by simp only [linPlace]; omega), seg_hit hj, seg_miss (by simp only [linPlace]; omega)]
    simp only [BitVec.xor_zero, BitVec.zero_xor]
  have h3 : ∀ g : Prg, g.pos + linBlocks d < 2 ^ 64 → ∀ j < d - 1, (g.shift (W g) fun _ _ _ => false).wordAt (linPlace d g.pos 3) j =
      g.wordAt (linPlace d g.pos 3) j ^^^ L g (d + numQuad d + j) := fun g hc j hj => by
    rw [wordAt_shift (by simp only [linPlace]; omega)]
    simp only [W]
    rw [seg_miss (by simp only [linPlace]; omega), seg_miss (by simp only [linPlace]; omega), seg_miss (by simp only [linPlace]; omega), seg_miss (by simp only [linPlace]; omega), seg_miss (by simp only [linPlace]; omega), seg_hit hj]
    simp only [BitVec.xor_zero, BitVec.zero_xor]
  have w0 : ∀ g : Prg, g.pos + linBlocks d < 2 ^ 64 → linX d (g.shift (W g) fun _ _ _ => false) = xorX d (linX d g) δx := fun g hc => by
    refine List.map_congr_left fun j hj => ?_
    have hj := List.mem_range.1 hj
    rw [linX_getD hj]
    exact h0 g hc j hj
  have hlen : ∀ g : Prg, (linX d g).length = d - 1 := fun g => by simp [linX]
  obtain ⟨σ, hσ, eσ⟩ := shift_blocks W fun g => by
    have hL : L (g.shift (W g) fun _ _ _ => false) = L g := by
      funext j
      by_cases hc : g.pos + linBlocks d < 2 ^ 64
      · have e1 := h4 g hc
        have e2 := w0 g hc
        simp only [L]
        rw [if_pos (show (g.shift (W g) _).pos + linBlocks d < 2 ^ 64 from hc), if_pos hc, e2, xorX_twice (hlen g)]
        show linShift d nbits _ _ ((g.shift (W g) _).wordAt (linPlace d g.pos 4) 0) ((g.shift (W g) _).wordAt (linPlace d g.pos 4) 0 ^^^ δy) j = _
        rw [e1, BitVec.xor_assoc, BitVec.xor_self, BitVec.xor_zero, linShift_comm]
      · simp only [L]
        rw [if_neg (show ¬ (g.shift (W g) _).pos + linBlocks d < 2 ^ 64 from hc), if_neg hc]
    funext i h
    show seg (linPlace d g.pos 0) (d - 1) δx i h ^^^ seg (linPlace d g.pos 4) 1 (fun _ => δy) i h ^^^
      seg (linPlace d g.pos 1) (d - 1) (L (g.shift (W g) _)) i h ^^^ seg (linPlace d g.pos 5) 1 (fun _ => L (g.shift (W g) _) (d - 1)) i h ^^^
      seg (linPlace d g.pos 2) (numQuad d) (fun j => L (g.shift (W g) _) (d + j)) i h ^^^
      seg (linPlace d g.pos 3) (d - 1) (fun j => L (g.shift (W g) _) (d + numQuad d + j)) i h = _
    rw [hL]
  refine ⟨σ, hσ, fun g hc => ?_⟩
  rw [eσ g]
  have hc1 : linBlocks d * (n + 1) = linBlocks d * n + linBlocks d := Nat.mul_succ _ _
  have hc' : g.pos + linBlocks d < 2 ^ 64 := by omega
  have w0 := w0 g hc'
  have w4 := h4 g hc'
  have wS : ∀ j < d + numQuad d + (d - 1), linS d (g.shift (W g) fun _ _ _ => false) j = linS d g j ^^^ L g j := fun j hj => by
    show (if j < d - 1 then (g.shift (W g) fun _ _ _ => false).wordAt (linPlace d g.pos 1) j
      else if j = d - 1 then (g.shift (W g) fun _ _ _ => false).wordAt (linPlace d g.pos 5) 0
      else if j < d + numQuad d then (g.shift (W g) fun _ _ _ => false).wordAt (linPlace d g.pos 2) (j - d)
      else (g.shift (W g) fun _ _ _ => false).wordAt (linPlace d g.pos 3) (j - (d + numQuad d))) = _
    unfold linS
    split_ifs with a b c
    · exact h1 g hc' j a
    · rw [b]; exact h5 g hc'
    · rw [h2 g hc' _ (by omega), show d + (j - d) = j by omega]
    · rw [h3 g hc' _ (by omega), show d + numQuad d + (j - (d + numQuad d)) = j by omega]
  have hL : L g = linShift d nbits (linX d g) (xorX d (linX d g) δx) (g.wordAt (linPlace d g.pos 4) 0) (g.wordAt (linPlace d g.pos 4) 0 ^^^ δy) := by
    funext j; exact if_pos hc'
  have dr : (linDraws d g).1 = linMk d (linX d g) (g.wordAt (linPlace d g.pos 4) 0) (linS d g) := by rw [linDraws_eq hd]
  have dr' : (linDraws d (g.shift (W g) fun _ _ _ => false)).1 =
      linMk d (xorX d (linX d g) δx) (g.wordAt (linPlace d g.pos 4) 0 ^^^ δy) (fun j => linS d g j ^^^ L g j) := by
    rw [linDraws_eq hd, w0]
    show linMk d _ ((g.shift (W g) fun _ _ _ => false).wordAt (linPlace d g.pos 4) 0) _ = _
    rw [w4]
    simp only [linMk, LinDraws.mk.injEq, true_and]
    refine ⟨?_, ?_, ?_, wS _ (by omega)⟩ <;> refine List.map_congr_left fun j hj => wS _ ?_ <;> have := List.mem_range.1 hj <;> omega
  obtain ⟨w, hw⟩ := lin_wires hd hsm hb hcc (linX d g) (hlen g) (g.wordAt (linPlace d g.pos 4) 0)
  have hlen' : (xorX d (linX d g) δx).length = d - 1 := by simp [xorX]
  obtain ⟨w', hw'⟩ := lin_wires hd hsm hb hcc (xorX d (linX d g) δx) hlen' (g.wordAt (linPlace d g.pos 4) 0 ^^^ δy)
  obtain ⟨e, he⟩ := packet_equiv1 hcok.wf hw.eval hw'.eval (by rw [hmul]; exact hrc)
  refine ⟨e, fun r rs hn => ?_⟩
  obtain ⟨p0, p1, p0', s, s'⟩ := he r
  have o := hw.client (linS d g) t r.1
  have o' := hw'.client (fun j => linS d g j ^^^ L g j) t (e r).1
  rw [s, Option.map_some, ← dr] at o
  rw [s', Option.map_some, ← dr'] at o'
  obtain ⟨k, rest, h, h'⟩ := lin_two hd (rs := rs) (W := W g) (by rw [hn]; exact hc) (fun i h hi => by
      simp only [W]
      rw [seg_miss (by simp only [linPlace]; omega), seg_miss (by simp only [linPlace]; omega), seg_miss (by simp only [linPlace]; omega), seg_miss (by simp only [linPlace]; omega), seg_miss (by simp only [linPlace]; omega), seg_miss (by simp only [linPlace]; omega)]
      simp only [BitVec.xor_zero]) o o'
  constructor
  · unfold linStream1
    rw [h, h']
    have : linRow1 nbits (linDraws d (g.shift (W g) fun _ _ _ => false)).1 p1 = linRow1 nbits (linDraws d g).1 p1 := by
      rw [dr, dr', hL]; exact lin_shift hd hb _ _ _ _ (hlen g) hlen' _ _
    cases rest
    · rfl
    · simp only [Option.map_some, Option.bind_some, sent1, List.map_cons, this]
  · refine lin_first h h' ?_ ?_
    · rw [dr, dr']; rfl
    · rw [dr, dr']; rfl

/-- Three submissions of degree 2 that meet the hypotheses, with draws for which the loop ends. -/
example : ∃ (c : Circuit) (t : RootTables) (l : List ℕ) (r : Draws c), 1 ≤ 2 ∧ linMul 2 < 2 ^ 18 ∧ checkLinReg intModulus 2 = some c ∧
    RootCalls (npow2 (linMul 2) :: l) t ∧ plainPrg.pos + linBlocks 2 * (2 + 1) < 2 ^ 64 ∧ ∃ rows, linLoop 2 4 t [r.1, r.1, r.1] plainPrg = some rows := by
  obtain ⟨c, hc, hcok, hmul, -⟩ := linCircuit (d := 2) (by norm_num) (by decide)
  have hm2 : linMul 2 = 2 := by decide
  obtain ⟨t, ht⟩ := C30_sizes (c := c) hcok.small [] _ .start
  rw [hmul] at ht
  have hr : ValidRand intModulus c ⟨1, 2, [3, 4, 5, 6], 5, 6, 7, [8, 9], 9, 10, 11, 12, 13⟩ := by
    refine ⟨by rw [hmul, hm2]; rfl, by rw [hmul, hm2]; rfl, ?_, ?_, ?_, ?_⟩ <;> simp only [IsDraw] <;> decide
  obtain ⟨rows, h, -⟩ := linLoop_rows (by norm_num) (by decide) (by norm_num : 4 ≤ 31) hc ht
    [⟨1, 2, [3, 4, 5, 6], 5, 6, 7, [8, 9], 9, 10, 11, 12, 13⟩, ⟨1, 2, [3, 4, 5, 6], 5, 6, 7, [8, 9], 9, 10, 11, 12, 13⟩,
      ⟨1, 2, [3, 4, 5, 6], 5, 6, 7, [8, 9], 9, 10, 11, 12, 13⟩] plainPrg (by
      intro r h
      simp only [List.mem_cons, List.not_mem_nil, or_false, or_self] at h
      rw [h]; exact hr)
  exact ⟨c, t, [], ⟨_, hr⟩, by norm_num, by decide, hc, ht, by decide, rows, h⟩

end Verif

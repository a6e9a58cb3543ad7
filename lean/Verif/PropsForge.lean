import Verif.ModelRand
import Verif.PropsMain
import Verif.PropsUpload
import Mathlib.Data.Set.Card.Arithmetic

/-!
# C55: the check point is known to the clients, and what they can do with it
-/

namespace Verif

open Polynomial

/-! ## Forging at a known check point -/

/-- If the wires that have to be zero are zero (as computed from the packets, right or wrong), a suitable triple makes the servers accept at the given
check point, whatever the coefficients. -/
theorem forge {c : Circuit} (hc : CircOk c) {inps : List ℤ} (hin : nIn c.gates ≤ inps.length) {pk0 pk1 : Packet} (h0 : PacketOk c pk0)
    (h1 : PacketOk c pk1) (hz : ∀ w0 w1, c.importWires intModulus false inps pk0.mulShares = some w0 →
      c.importWires intModulus true (List.replicate inps.length 0) pk1.mulShares = some w1 →
      ∀ i < c.resultZero.length, wireF intModulus w0 (c.resultZero.getD i 0) + wireF intModulus w1 (c.resultZero.getD i 0) = 0)
    {x : ℤ} (hx : Canon x intModulus) :
    ∃ T, Canon T intModulus ∧ ∀ cs : List ℤ, c.resultZero.length + 1 ≤ cs.length →
      Accepts c x cs inps { pk0 with triple := { pk0.triple with C := T } } pk1 := by
  obtain ⟨t, hrc⟩ := C30_sizes hc.small [] _ .start
  have ht := (C02_tables_after_any_history _ _ hrc).1 _ _ rfl
  have hNpos : 0 < npow2 c.mulGates.length := Nat.lt_of_le_of_lt (Nat.zero_le _) (npow2_gt _)
  obtain ⟨pre, hpre, hp⟩ := checkerPre_ok hNpos ht hx
  obtain ⟨w0, e0⟩ := import_total hc.wf false hin h0.m
  obtain ⟨w1, e1⟩ := import_total hc.wf true (inps := List.replicate inps.length 0) (by simpa using hin) h1.m
  set E : ZMod intModulus := ((X * (polyFG c.mulGates.length (npow2 c.mulGates.length) (nodeF intModulus t.roots) (pk0.f0 + pk1.f0 : ZMod intModulus)
                (fun i => wireF intModulus w0 (c.parL (c.mg i)) + wireF intModulus w1 (c.parL (c.mg i))) *
              polyFG c.mulGates.length (npow2 c.mulGates.length) (nodeF intModulus t.roots) (pk0.g0 + pk1.g0 : ZMod intModulus)
                (fun i => wireF intModulus w0 (c.parR (c.mg i)) + wireF intModulus w1 (c.parR (c.mg i))) -
              polyH c.mulGates.length (npow2 c.mulGates.length) (nodeF intModulus t.roots2) (pk0.h0 + pk1.h0 : ZMod intModulus)
                (fun i => wireF intModulus w0 (c.mg i) + wireF intModulus w1 (c.mg i)) (fun j => nodeF intModulus pk0.hPoints j + nodeF intModulus pk1.hPoints j))).eval (x : ZMod intModulus)) with hE
  set V : ZMod intModulus := (pk0.triple.A + pk1.triple.A : ZMod intModulus) * (pk0.triple.B + pk1.triple.B) - pk1.triple.C - E with hV
  refine ⟨(V.val : ℤ), canon_val _, fun cs hcs => ?_⟩
  obtain ⟨k0, k1, a0, a1, hk⟩ := check_sum hc.wf hp (pk0 := { pk0 with triple := { pk0.triple with C := (V.val : ℤ) } }) (pk1 := pk1) e0 e1 h0.h h1.h
  obtain ⟨o0, o1, q0, q1, c0, c1, hs⟩ := hk cs hcs
  refine ⟨t, [], pre, k0, k1, o0, o1, hrc, hpre, a0, a1, q0, q1, ?_⟩
  have hsum : (o0 + o1 : ZMod intModulus) = 0 := by
    rw [hs, Finset.sum_eq_zero fun i hi => by rw [hz w0 w1 e0 e1 i (Finset.mem_range.1 hi), mul_zero], add_zero, eval_add, eval_C]
    dsimp only
    rw [← hE, Int.cast_natCast, ZMod.natCast_zmod_val, hV]
    ring
  rw [addToZero, decide_eq_true_eq, fmod_eq_zero_iff, Int.cast_add]; exact hsum

/-- The submission of a client that knows the check point: value `v`, "square" `s`, the output of the multiplication gate claimed to be `s`, all
polynomials zero, and a triple with `c = T`. -/
def forgedRow (v s : ℕ) (T : ℤ) : SnipRow := ⟨[BitVec.ofNat 64 v, BitVec.ofNat 64 s], ⟨[fmod s intModulus], 0, 0, 0, [0, 0], ⟨0, 0, T⟩⟩⟩

/-- The other half. -/
def forgedRow1 : SnipRow := ⟨[0#64, 0#64], zeroPacket 1⟩

theorem forged_fits {nbits v s : ℕ} (hb : nbits ≤ 24) (hv : v < 2 ^ nbits) (hs : s < 2 ^ (2 * nbits)) (T : ℤ) :
    varFits nbits (forgedRow v s T) = true ∧ varFits nbits forgedRow1 = true ∧ (BitVec.ofNat 64 v).toNat = v ∧ (BitVec.ofNat 64 s).toNat = s := by
  have b1 : (2 : ℕ) ^ nbits ≤ 2 ^ 24 := Nat.pow_le_pow_right (by norm_num) hb
  have b2 : (2 : ℕ) ^ (2 * nbits) ≤ 2 ^ 48 := Nat.pow_le_pow_right (by norm_num) (by omega)
  have e1 : (BitVec.ofNat 64 v).toNat = v := by rw [BitVec.toNat_ofNat, Nat.mod_eq_of_lt (by omega)]
  have e2 : (BitVec.ofNat 64 s).toNat = s := by rw [BitVec.toNat_ofNat, Nat.mod_eq_of_lt (by omega)]
  refine ⟨?_, ?_, e1, e2⟩
  · simp only [varFits, forgedRow, List.getD_cons_zero, List.getD_cons_succ, e1, e2, hv, hs, decide_true, Bool.and_self]
  · simp [varFits, forgedRow1]

theorem forged_vals {nbits v s : ℕ} (hb : nbits ≤ 24) (hv : v < 2 ^ nbits) (hs : s < 2 ^ (2 * nbits)) (T : ℤ) :
    recVal (varWidths nbits) (forgedRow v s T) forgedRow1 0 = v ∧ recVal (varWidths nbits) (forgedRow v s T) forgedRow1 1 = s := by
  obtain ⟨-, -, e1, e2⟩ := forged_fits hb hv hs T
  have m1 : v % 2 ^ nbits = v := Nat.mod_eq_of_lt hv
  have m2 : s % 2 ^ (nbits * 2) = s := Nat.mod_eq_of_lt (by rw [mul_comm]; exact hs)
  constructor
  · simp only [recVal, forgedRow, forgedRow1, varWidths, List.getD_cons_zero, BitVec.xor_zero, e1, m1]
  · simp only [recVal, forgedRow, forgedRow1, varWidths, List.getD_cons_zero, List.getD_cons_succ, BitVec.xor_zero, e2, m2]

theorem importVar (sv : Bool) (a b m : ℤ) : varCircuit.importWires intModulus sv [a, b] [m] =
    some [a, b, m, fmod (b * fmod (-1) intModulus) intModulus, fmod (m + fmod (b * fmod (-1) intModulus) intModulus) intModulus] := rfl

/-- For every check point there is a triple with which any value and any "square" are accepted with all coefficients. -/
theorem forged_accepts {nbits v s : ℕ} (hb : nbits ≤ 24) (hv : v < 2 ^ nbits) (hs : s < 2 ^ (2 * nbits)) {x : ℤ} (hx : Canon x intModulus) :
    ∃ T, Canon T intModulus ∧ ∀ cs : List ℤ, 2 ≤ cs.length →
      Accepts varCircuit x cs (recIn (varWidths nbits) (forgedRow v s T) forgedRow1) (forgedRow v s T).packet forgedRow1.packet := by
  have hr : ∀ T, recIn (varWidths nbits) (forgedRow v s T) forgedRow1 = [fmod v intModulus, fmod s intModulus] := by
    intro T
    obtain ⟨a, b⟩ := forged_vals hb hv hs T
    have : recIn (varWidths nbits) (forgedRow v s T) forgedRow1 =
      [fmod (recVal (varWidths nbits) (forgedRow v s T) forgedRow1 0) intModulus, fmod (recVal (varWidths nbits) (forgedRow v s T) forgedRow1 1) intModulus] := rfl
    rw [this, a, b]
  obtain ⟨T, hT, h⟩ := forge varCircuit_ok (inps := [fmod v intModulus, fmod s intModulus]) (show 2 ≤ 2 by decide) (pk0 := (forgedRow v s 0).packet)
    (pk1 := forgedRow1.packet) ⟨rfl, rfl⟩ ⟨rfl, rfl⟩ (by
      intro w0 w1 e0 e1 i hi
      have hi : i < 1 := hi
      obtain rfl : i = 0 := by omega
      have h0 := (importVar false (fmod v intModulus) (fmod s intModulus) (fmod s intModulus)).symm.trans e0
      have h1 := (importVar true 0 0 0).symm.trans e1
      cases h0; cases h1
      simp only [wireF, at0, varCircuit, List.getD_cons_zero, List.getD_cons_succ, fmod_cast, Int.cast_add, Int.cast_mul, Int.cast_neg, Int.cast_one]
      push_cast
      ring) hx
  refine ⟨T, hT, fun cs hcs => ?_⟩
  rw [hr T]
  exact h cs hcs

/-! ## C55 -/

/-- C55. A submission uses `snipDraws n` consecutive draws of its client, each in one place, in the order of the code: the numbers that hide the two
polynomials, the values of the third, the sum and product shares and the triple are never the same draw. -/
theorem C55_draws (d : ℕ → ℤ) (n k : ℕ) :
    let r := snipRandAt d n k
    [r.f0, r.g0] ++ r.h ++ [r.f0s, r.g0s, r.h0s] ++ r.mul ++ [r.A, r.B, r.As, r.Bs, r.Cs] = (List.range (snipDraws n)).map fun i => d (k + i) := by
  intro r
  have h : snipDraws n = 2 + npow2 n + 3 + n + 5 := by unfold snipDraws; omega
  rw [h, List.range_add, List.range_add, List.range_add, List.range_add]
  simp only [List.map_append, List.map_map]
  simp only [r, snipRandAt]
  congr 1
  · congr 1
    · congr 1
      · congr 1
        exact List.map_congr_left fun i _ => by simp only [Function.comp]; congr 1; omega
      · simp [List.range_succ, Function.comp]; refine ⟨?_, ?_, ?_⟩ <;> congr 1 <;> omega
    · exact List.map_congr_left fun i _ => by simp only [Function.comp]; congr 1; omega
  · simp [List.range_succ, Function.comp]; refine ⟨?_, ?_, ?_, ?_, ?_⟩ <;> congr 1 <;> omega

/-- C55, the desired property fails. For every generator that `flint_randinit` puts into a fixed state: server 1's first check point, the first
combination coefficient and the first number drawn by any client for its first submission (its `f(0)`) are the same number, and all coefficients of the
session are the numbers that any process can draw for itself. -/
theorem C55_false_same_draws (G : FlintRand) (n : ℕ) :
    (snipRandAt G.nth n 0).f0 = G.nth 0 ∧ G.run (G.restore (G.mem G.init)) = G.nth := by
  refine ⟨rfl, ?_⟩
  rw [G.copy]
  rfl

theorem nth_canon (G : FlintRand) (k : ℕ) : Canon (G.nth k) intModulus := by
  have : ∀ k s, Canon (G.run s k) intModulus := by
    intro k
    induction k with
    | zero => exact fun s => G.draw s
    | succ k ih => exact fun s => ih _
  exact this k _

/-- The servers' state at the start of the first session: both hold the first draw as their check point and the whole sequence of coefficients is
`G.nth` (from `C47_main_partial`). -/
theorem C55_false_main (c : StoreCfg) {g0 g1 : StoreRng} (hg : GoodRng intModulus g0) {nbits : ℕ} (G : FlintRand) (rs : List (Batch × Env × Env))
    (hr : ∀ r ∈ rs, RoundOk nbits r) :
    ∃ as s0' s1' y', Always (serverBoot false c g0 nbits G (rs.map (·.2.1))) (serverBoot true c g1 nbits G (rs.map (·.2.2)))
        (as, s0') (rs.map (·.1.quiet), s1') ∧
      SessionAnswers nbits G.nth ⟨(snipRandAt G.nth 1 0).f0, 0, 0⟩ rs as y' ∧ InStep y' s0' s1' := by
  have := C47_main_partial c (g1 := g1) hg (fun b => G.run (G.restore b)) (nth_canon G 0) (G.nth 0) (G.mem G.init) (G.mem G.init) rs hr
  rw [(C55_false_same_draws G 1).2] at this
  exact this

/-- C55, what a client can do with it: for every value and every "square" in range there are two rows, computed from public information only
(the generator), that are read as sent, reconstruct to this value and this "square", and are counted whatever the other submissions, the coefficients and
the order of the keys. -/
theorem C55_false_forged (G : FlintRand) {nbits v s : ℕ} (hb : nbits ≤ 24) (hv : v < 2 ^ nbits) (hs : s < 2 ^ (2 * nbits)) :
    ∃ r0 r1 : SnipRow, (∀ k : Bytes, k.length = pkLength → ∃ b0 b1, encVarShares [(k, r0)] = some b0 ∧ encVarShares [(k, r1)] = some b1 ∧
        Reads ((rdVarShare 1).rep 1) b0 [(k, r0)] ∧ Reads ((rdVarShare 1).rep 1) b1 [(k, r1)]) ∧
      varFits nbits r0 = true ∧ varFits nbits r1 = true ∧
      (r0.vals.getD 0 0#64 ^^^ r1.vals.getD 0 0#64).toNat = v ∧ (r0.vals.getD 1 0#64 ^^^ r1.vals.getD 1 0#64).toNat = s ∧
      ∀ (subs0 subs1 : List (Bytes × SnipRow)) (k : Bytes), firstOf (varFits nbits) subs0 k = some r0 → firstOf (varFits nbits) subs1 k = some r1 →
        ∀ (coef : ℕ → ℤ) (pos : ℕ) (o : List Bytes), k ∈ varCounted (G.nth 0) coef pos nbits subs0 subs1 o := by
  obtain ⟨T, hT, h⟩ := forged_accepts hb hv hs (nth_canon G 0)
  obtain ⟨f0, f1, e1, e2⟩ := forged_fits hb hv hs T
  have z : Fits 0 := ⟨by norm_num, by norm_num⟩
  refine ⟨forgedRow v s T, forgedRow1, ?_, f0, f1, ?_, ?_, ?_⟩
  · intro k hk
    obtain ⟨b0, a0, r0⟩ := var_stream (subs := [(k, forgedRow v s T)]) (by
      intro e he
      rw [List.mem_singleton.1 he]
      refine ⟨hk, rfl, ⟨rfl, rfl⟩, ?_⟩
      intro y hy
      simp only [forgedRow, Packet.all, List.cons_append, List.nil_append, List.mem_cons, List.not_mem_nil, or_false] at hy
      rcases hy with rfl | rfl | rfl | rfl | rfl | rfl | rfl | rfl | rfl <;> first | exact z | exact fits_canon (fmod_canon _) | exact fits_canon hT)
    obtain ⟨b1, a1, r1⟩ := var_stream (subs := [(k, forgedRow1)]) (by
      intro e he
      rw [List.mem_singleton.1 he]
      refine ⟨hk, rfl, ⟨rfl, rfl⟩, ?_⟩
      intro y hy
      have : y = 0 := by
        have e : forgedRow1.packet.all = List.replicate 9 0 := by decide
        rw [e] at hy
        exact List.eq_of_mem_replicate hy
      rw [this]; exact z)
    exact ⟨b0, b1, a0, a1, r0, r1⟩
  · show (BitVec.ofNat 64 v ^^^ 0#64).toNat = v
    rw [BitVec.xor_zero, e1]
  · show (BitVec.ofNat 64 s ^^^ 0#64).toNat = s
    rw [BitVec.xor_zero, e2]
  · intro subs0 subs1 k h0 h1 coef pos o
    classical
    unfold varCounted passing
    rw [Finset.mem_filter]
    refine ⟨?_, _, _, h0, h1, h _ (by simp [coefs, varCircuit])⟩
    simp only [bothKeys, Finset.mem_filter, List.mem_toFinset, h0, h1, Option.isSome_some, and_true]
    exact List.mem_map.2 ⟨_, firstOf_mem h0, rfl⟩

/-- C55, a whole session: a client that knows the generator makes the servers answer its only VAR query with `s - v²` for a single submission
with value `v`, although the variance of one value is 0. -/
theorem C55_false_answer (c : StoreCfg) {g0 g1 : StoreRng} (hg : GoodRng intModulus g0) (G : FlintRand) {nbits v s : ℕ} (hb : nbits ≤ 24)
    (hv : v < 2 ^ nbits) (hs : s < 2 ^ (2 * nbits)) (hsp : s < intModulus) {k : Bytes} (hk : k.length = pkLength) :
    ∃ b0 b1 : Bytes, ∀ e0 e1 : Env, e0.stream = encInit ⟨7, 1, 0⟩ ++ b0 → e1.stream = encInit ⟨7, 1, 0⟩ ++ b1 →
      (∀ α : Type, IsOrder (e1.ord (α := α))) → Canon e1.draw intModulus →
      ∃ s0' s1', Always (serverBoot false c g0 nbits G [e0]) (serverBoot true c g1 nbits G [e1])
        ([.real (.ans (some ((s : ℝ) - (v : ℝ) ^ 2)))], s0') ([.real .noAns], s1') := by
  obtain ⟨r0, r1, henc, f0, f1, v0, v1, hcnt⟩ := C55_false_forged G hb hv hs
  obtain ⟨b0, b1, -, -, rd0, rd1⟩ := henc k hk
  refine ⟨b0, b1, fun e0 e1 h0 h1 ho hd => ?_⟩
  have st0 : VarStream 1 b0 [(k, r0)] := ⟨[], by simpa using rd0 []⟩
  have st1 : VarStream 1 b1 [(k, r1)] := ⟨[], by simpa using rd1 []⟩
  obtain ⟨as, s0', s1', y', hA, hS, -⟩ := C55_false_main c (g1 := g1) hg G [(.var false [(k, r0)] [(k, r1)], e0, e1)] (by
    intro r hr
    rw [List.mem_singleton.1 hr]
    refine ⟨⟨b0, b1, ⟨show 1 < 2 ^ 32 by decide, 0, by simp, h0⟩, st0, ⟨show 1 < 2 ^ 32 by decide, 0, by simp, h1⟩, st1⟩, ⟨hb, (k, r1), by simp, f1⟩, ho, hd⟩)
  refine ⟨s0', s1', ?_⟩
  obtain ⟨a, as', rfl, hans, rfl, -⟩ := hS
  have e : (Shared.refresh e1.draw ⟨(snipRandAt G.nth 1 0).f0, 0, 0⟩) = ⟨G.nth 0, 0, 0⟩ := rfl
  rw [e] at hans
  simp only [Batch.Answers] at hans
  have fo0 : firstOf (varFits nbits) [(k, r0)] k = some r0 := by simp [firstOf, f0]
  have fo1 : firstOf (varFits nbits) [(k, r1)] k = some r1 := by simp [firstOf, f1]
  have hG : varCounted (G.nth 0) G.nth 0 nbits [(k, r0)] [(k, r1)] (e1.ord (admit (varFits nbits) [(k, r1)] [])).keys = {k} := by
    apply Finset.Subset.antisymm
    · refine C40_counted_both.trans ?_
      intro x hx
      simp only [bothKeys, Finset.mem_filter, List.mem_toFinset] at hx
      simpa using hx.1
    · intro x hx
      rw [Finset.mem_singleton.1 hx]
      exact hcnt _ _ _ fo0 fo1 _ _ _
  have w0 : varVal nbits [(k, r0)] [(k, r1)] 0 k = v := by simp only [varVal, fo0, fo1]; exact v0
  have w1 : varVal nbits [(k, r0)] [(k, r1)] 1 k = s := by simp only [varVal, fo0, fo1]; exact v1
  have hvp : v < intModulus := lt_of_lt_of_le hv ((Nat.pow_le_pow_right (by norm_num) hb).trans (by decide))
  rw [hG, Finset.sum_singleton, Finset.sum_singleton, w0, w1, Finset.card_singleton, List.length_singleton, verdict_full, Nat.mod_eq_of_lt hsp,
    Nat.mod_eq_of_lt hvp] at hans
  have e2 : varAnswer e0.fma false ((v : ℕ) : ℤ) ((s : ℕ) : ℤ) 1 = some ((s : ℝ) - (v : ℝ) ^ 2) := by
    have hv2 : v ^ 2 < 2 ^ 48 := by
      calc v ^ 2 < (2 ^ nbits) ^ 2 := Nat.pow_lt_pow_left hv (by norm_num)
        _ = 2 ^ (2 * nbits) := by rw [← pow_mul, mul_comm]
        _ ≤ 2 ^ 48 := Nat.pow_le_pow_right (by norm_num) (by omega)
    have hs2 : s < 2 ^ 48 := lt_of_lt_of_le hsp (by decide)
    have r1 : rnd (1 : ℝ) = 1 := by have := rnd_nat (n := 1) (by norm_num); simpa using this
    have rv : rnd (v : ℝ) = v := rnd_nat (by nlinarith)
    have rs : rnd (s : ℝ) = s := rnd_nat (by omega)
    have rvv : rnd ((v : ℝ) * v) = (v : ℝ) * v := by
      have := rnd_nat (n := v ^ 2) (by omega)
      rw [show (v : ℝ) * v = ((v ^ 2 : ℕ) : ℝ) by push_cast; ring]
      exact this
    have rd : rnd ((s : ℝ) - v * v) = (s : ℝ) - v ^ 2 := by
      have hz : |(s : ℤ) - ((v ^ 2 : ℕ) : ℤ)| < 2 ^ 53 := by rw [abs_lt]; constructor <;> omega
      have := rnd_int hz
      push_cast at this
      rw [← pow_two]
      exact this
    simp only [varAnswer, subSquare, Int.cast_natCast, Nat.cast_one, r1, rv, rs, div_one, rvv, rd]
    simp
  rw [e2] at hans
  rw [hans] at hA
  exact hA

/-! ## With an unpredictable check point -/

theorem draw_lists (k : ℕ) : {cs : List ℤ | cs.length = k ∧ ∀ y ∈ cs, IsDraw y intModulus}.Finite ∧
    {cs : List ℤ | cs.length = k ∧ ∀ y ∈ cs, IsDraw y intModulus}.ncard ≤ intModulus ^ k := by
  have hne : NeZero intModulus := ⟨by decide⟩
  let f : (Fin k → ZMod intModulus) → List ℤ := fun v => List.ofFn fun i => ((v i).val : ℤ)
  have hsub : {cs : List ℤ | cs.length = k ∧ ∀ y ∈ cs, IsDraw y intModulus} ⊆ f '' Set.univ := by
    rintro cs ⟨hl, hd⟩
    refine ⟨fun i => (cs.getD i 0 : ZMod intModulus), trivial, ?_⟩
    apply List.ext_getElem
    · simp [f, hl]
    · intro i _ h5
      have hc := hd cs[i] (List.getElem_mem h5)
      simp only [f, List.getElem_ofFn, List.getD_eq_getElem?_getD, List.getElem?_eq_getElem h5, Option.getD_some]
      exact val_of_canon hc
  refine ⟨(Set.toFinite _).subset hsub, (Set.ncard_le_ncard hsub (Set.toFinite _)).trans ((Set.ncard_image_le (Set.toFinite _)).trans ?_)⟩
  rw [Set.ncard_univ, Nat.card_fun, Nat.card_zmod, Nat.card_eq_fintype_card, Fintype.card_fin]

/-- C55, the part that holds (full statement: the check point is unpredictable; missing: a generator with a secret state). If the check point and the
coefficients were uniformly distributed and independent of the submission, a submission that fails the circuit would pass with probability at most
`(2N + 1) / p`: of the `p * p^(k+1)` choices of check point and coefficients at most `(2N + 1) * p^(k+1)` make the servers accept, whatever the packets. -/
theorem C55_uniform_partial {c : Circuit} (hc : CircOk c) {inps w : List ℤ} (hev : c.eval intModulus inps = some (w, false))
    (hcan : ∀ v ∈ inps, Canon v intModulus) {pk0 pk1 : Packet} (h0 : PacketOk c pk0) (h1 : PacketOk c pk1) :
    {e : ℤ × List ℤ | IsDraw e.1 intModulus ∧ e.2.length = c.resultZero.length + 1 ∧ (∀ y ∈ e.2, IsDraw y intModulus) ∧
      Accepts c e.1 e.2 inps pk0 pk1}.ncard ≤ (2 * npow2 c.mulGates.length + 1) * intModulus ^ (c.resultZero.length + 1) := by
  classical
  obtain ⟨bad, hb, h⟩ := accepts_count hc hev hcan h0 h1
  set k := c.resultZero.length with hk
  let A : ℕ → Set (List ℤ) := fun x => {cs | cs.length = k + 1 ∧ (∀ y ∈ cs, IsDraw y intModulus) ∧ Accepts c x cs inps pk0 pk1}
  have hsub : {e : ℤ × List ℤ | IsDraw e.1 intModulus ∧ e.2.length = k + 1 ∧ (∀ y ∈ e.2, IsDraw y intModulus) ∧ Accepts c e.1 e.2 inps pk0 pk1} ⊆
      ⋃ x ∈ Finset.range intModulus, (fun cs => ((x : ℤ), cs)) '' A x := by
    rintro ⟨x, cs⟩ ⟨hx, hl, hd, ha⟩
    simp only [Set.mem_iUnion]
    obtain ⟨hx0, hx1⟩ := hx
    dsimp only at hx0 hx1
    refine ⟨x.toNat, Finset.mem_range.2 (by omega), cs, ⟨hl, hd, ?_⟩, ?_⟩
    · rw [Int.toNat_of_nonneg hx0]; exact ha
    · rw [Int.toNat_of_nonneg hx0]
  have hA : ∀ x, (A x).ncard ≤ intModulus ^ (k + 1) := fun x => by
    refine (Set.ncard_le_ncard ?_ (draw_lists (k + 1)).1).trans (draw_lists _).2
    exact fun cs h => ⟨h.1, h.2.1⟩
  have hAf : ∀ x, (A x).Finite := fun x => (draw_lists (k + 1)).1.subset fun cs h => ⟨h.1, h.2.1⟩
  have hgood : ∀ x ∈ Finset.range intModulus, ((x : ℕ) : ZMod intModulus) ∉ bad → (A x).ncard = intModulus ^ k := by
    intro x hx hxb
    rw [Finset.mem_range] at hx
    have := h (x : ℤ) ⟨by positivity, by exact_mod_cast hx⟩ (by exact_mod_cast hxb)
    exact this
  have hbig : (⋃ x ∈ Finset.range intModulus, (fun cs => ((x : ℤ), cs)) '' A x).Finite :=
    Set.Finite.biUnion (Finset.finite_toSet _) fun x _ => (hAf x).image _
  have hbadcard : ((Finset.range intModulus).filter fun x : ℕ => ((x : ℕ) : ZMod intModulus) ∈ bad).card ≤ bad.card := by
    refine Finset.card_le_card_of_injOn (fun x : ℕ => (x : ZMod intModulus)) ?_ ?_
    · intro x hx
      exact (Finset.mem_filter.1 hx).2
    · intro x hx y hy hxy
      have hx := Finset.mem_range.1 (Finset.mem_filter.1 hx).1
      have hy := Finset.mem_range.1 (Finset.mem_filter.1 hy).1
      dsimp only at hxy
      rwa [ZMod.natCast_eq_natCast_iff', Nat.mod_eq_of_lt hx, Nat.mod_eq_of_lt hy] at hxy
  calc _ ≤ _ := Set.ncard_le_ncard hsub hbig
    _ ≤ ∑ x ∈ Finset.range intModulus, ((fun cs => ((x : ℤ), cs)) '' A x).ncard := Finset.set_ncard_biUnion_le _ _
    _ ≤ ∑ x ∈ Finset.range intModulus, ((if ((x : ℕ) : ZMod intModulus) ∈ bad then intModulus ^ (k + 1) else 0) + intModulus ^ k) := by
      refine Finset.sum_le_sum fun x hx => (Set.ncard_image_le (hAf x)).trans ?_
      split_ifs with hxb
      · exact (hA x).trans (Nat.le_add_right _ _)
      · rw [hgood x hx hxb]; exact Nat.le_add_left _ _
    _ ≤ _ := by
      rw [Finset.sum_add_distrib, ← Finset.sum_filter, Finset.sum_const, Finset.sum_const, Finset.card_range, smul_eq_mul, smul_eq_mul, add_mul, one_mul]
      refine Nat.add_le_add (Nat.mul_le_mul_right _ (hbadcard.trans hb)) (le_of_eq ?_)
      rw [pow_succ, mul_comm]

/-- Non-vacuity: a generator. -/
def plainFlint : FlintRand where
  State := ℕ
  init := 0
  next s := (((s % intModulus : ℕ) : ℤ), s + 1)
  mem _ := []
  restore _ := 0
  draw s := ⟨Int.natCast_nonneg _, Int.ofNat_lt.2 (Nat.mod_lt _ (by decide))⟩
  copy := rfl

/-- With it, the value 0 with the "square" 5 at 2 bits: the servers answer 5. -/
example : ∃ b0 b1 : Bytes, ∃ s0' s1', Always (serverBoot false ⟨2, 4, true⟩ exampleRng 2 plainFlint [plainEnv (encInit ⟨7, 1, 0⟩ ++ b0)])
    (serverBoot true ⟨2, 4, true⟩ exampleRng 2 plainFlint [plainEnv (encInit ⟨7, 1, 0⟩ ++ b1)])
    ([.real (.ans (some (5 : ℝ)))], s0') ([.real .noAns], s1') := by
  obtain ⟨b0, b1, h⟩ := C55_false_answer ⟨2, 4, true⟩ (g1 := exampleRng) exampleRng_good plainFlint (nbits := 2) (v := 0) (s := 5) (by decide) (by decide) (by decide)
    (by decide) (k := List.replicate 32 48#8) (by decide)
  obtain ⟨s0', s1', h⟩ := h (plainEnv _) (plainEnv _) rfl rfl (plain_order _) (zero_canon goodModulus)
  refine ⟨b0, b1, s0', s1', ?_⟩
  simpa using h

/-- A submission that fails the circuit: 1 and 2. -/
example : ∃ w, varCircuit.eval intModulus [1, 2] = some (w, false) ∧ PacketOk varCircuit (zeroPacket 1) :=
  ⟨[1, 2, 1, intModulus - 2, intModulus - 1], by decide +kernel, rfl, rfl⟩

end Verif

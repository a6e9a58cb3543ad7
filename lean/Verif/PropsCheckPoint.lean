import Verif.LemmasSkew

/-!
# C50 is false after FREQ: the two servers come to use different check points

The validity vector a FREQ query leaves behind shifts what server 1 reads of the next FREQ query. If the batch check of that one passes as well, server 0
is left with nine bytes; they shift the next VAR query, and the refresh of the check point after it reads bytes of the sums in place of the new point.
-/

namespace Verif

/-- Server 0's daBits consumed by the second FREQ query: the shares of two zero bits. -/
def skewBits0 : List DaBit := [⟨70368798965760, false⟩, ⟨140737597865985, false⟩]

/-- Server 1's. -/
def skewBits1 : List DaBit := [⟨70368798965761, false⟩, ⟨65536, false⟩]

theorem skewBits_ok : List.Forall₂ (DaOk intModulus) skewBits0 skewBits1 := by
  unfold skewBits0 skewBits1
  refine .cons ?_ (.cons ?_ .nil) <;> unfold DaOk DaBitPair Canon <;> decide

/-- The second FREQ query of the witness: one client, bucket 0, whose shares are `[0, 0]` and `[1, 0]`. -/
theorem freq_skew (c : StoreCfg) {g0 g1 : StoreRng} {t0 t1 : List DaBit} (tr0 tr1 : List BTriple) (n0 n1 : ℕ) :
    ∃ a, RunsQ [1#8] [] (freq0 c g0 2 1 [(keyA, [false, false])] ⟨skewBits0 ++ t0, tr0, n0⟩) (freq1 c g1 2 [(keyA, [true, false])] ⟨skewBits1 ++ t1, tr1, n1⟩)
      (a, ⟨t0, tr0, n0⟩) (.noAns, ⟨t1, tr1, n1⟩) [1#8] ([0, 0, 0, 1, 0, 0, 0, 0, 0] : Bytes) := by
  refine ⟨?a, ?_⟩
  rotate_left
  intro γ δ κ0 κ1
  unfold freq0 freq1
  simp only [Proc.bind_assoc]
  refine (steps_listenInto 1 [keyA] (by decide) (by decide) (by decide) _ _ _).trans ?_
  have hv0 : List.map (freqRow0 2 [(keyA, [false, false])]) [keyA] = [[false, false]] := by decide
  simp only [hv0, List.map_cons, List.map_nil]
  have hc0 : freqConvert c g0 false [[false, false]] ⟨skewBits0 ++ t0, tr0, n0⟩ = (exch [0#8] (rdBools 2)).bind fun v =>
      .ret (List.zipWith (convBit intModulus false) [70368798965760, 140737597865985] (maskBits [false, false] v), ⟨t0, tr0, n0⟩) := by
    unfold freqConvert
    rw [if_pos (by decide), b2aSingle_full (by simp [skewBits0])]
    have hb : encBools [false, false] = [0#8] := by decide
    rw [← hb]
    rfl
  have hc1 : freqConvert c g1 true [[true, false]] ⟨skewBits1 ++ t1, tr1, n1⟩ = (exch [1#8] (rdBools 2)).bind fun v =>
      .ret (List.zipWith (convBit intModulus true) [70368798965761, 65536] (maskBits [true, false] v), ⟨t1, tr1, n1⟩) := by
    unfold freqConvert
    rw [if_pos (by decide), b2aSingle_full (by simp [skewBits1])]
    have hb : encBools [true, false] = [1#8] := by decide
    rw [← hb]
    rfl
  rw [hc0, hc1]
  simp only [exch, Proc.bind_assoc]
  refine .head (.send0 ..) (.head (.send1 ..) ?_)
  simp only [Proc.ret_bind', List.nil_append, List.cons_append]
  have e0 : (rdBools 2).run [1#8] = some ([true, false], []) := by decide
  have e1 : (rdBools 2).run [1#8, 0#8] = some ([true, false], [0#8]) := by decide
  refine (steps_read0 _ _ _ _ e0 _ _ _).trans ((steps_read1 _ _ _ _ e1 _ _ _).trans ?_)
  have m0 : List.zipWith (convBit intModulus false) [70368798965760, 140737597865985] (maskBits [false, false] [true, false]) =
    [70368798965761, 140737597865985] := by decide
  have m1 : List.zipWith (convBit intModulus true) [70368798965761, 65536] (maskBits [true, false] [true, false]) = [70368798965761, 65536] := by decide
  rw [m0, m1]
  have p1 : pieces 2 (List.length [(keyA, [true, false])]) ([70368798965761, 65536] : List ℤ) = [[70368798965761, 65536]] := rfl
  have p0 : pieces 2 (List.length [keyA]) ([70368798965761, 140737597865985] : List ℤ) = [[70368798965761, 140737597865985]] := rfl
  have q1 : parityOf [parityOf [true, false]] = true := rfl
  have q0 : parityOf [parityOf [false, false]] = false := rfl
  have r1 : modSum [modSum [70368798965761, 65536]] = 70368799031297 := by decide
  have r0 : modSum [modSum [70368798965761, 140737597865985]] = 70368798900225 := by decide
  have r1' : modSum [70368798965761, 65536] = 70368799031297 := by decide
  simp only [p0, p1, List.map_cons, List.map_nil, q0, q1, r0, r1]
  have s1 : encFmpz 70368799031297 = some ([1, 0, 69, 3, 0, 64, 0, 0] : Bytes) := by decide
  have t1 : encBool true = [1#8] := rfl
  rw [s1, t1]
  simp only [Proc.putOpt]
  refine .head (.send1 ..) (.head (.send1 ..) ?_)
  simp only [Proc.ret_bind', List.nil_append, List.cons_append]
  have e2 : rdBool.run ([1, 1, 0, 69, 3, 0, 64, 0, 0] : Bytes) = some (true, [1, 0, 69, 3, 0, 64, 0, 0]) := by decide
  have e3 : rdFmpz.run ([1, 0, 69, 3, 0, 64, 0, 0] : Bytes) = some (70368799031297, []) := by decide
  refine (steps_read0 _ _ _ _ e2 _ _ _).trans ((steps_read0 _ _ _ _ e3 _ _ _).trans ?_)
  have bv : batchValid 1 false true 70368798900225 70368799031297 = true := by decide
  simp only [bv, if_true, Proc.ret_bind', t1]
  refine .head (.send0 ..) ?_
  simp only [Proc.ret_bind', List.nil_append, List.cons_append]
  have e4 : rdBool.run [0#8, 1#8] = some (false, [1#8]) := by decide
  refine (steps_read1 _ _ _ _ e4 _ _ _).trans ?_
  have b1 : encBools [true] = [1#8] := by decide
  have hpar : parityOf [true, false] = true := rfl
  have s2 : encFmpzs [70368799031297] = some ([1, 0, 69, 3, 0, 64, 0, 0] : Bytes) := by
    rw [encFmpzs_of_fits _ (by simp [Fits])]; decide
  simp only [Bool.false_eq_true, if_false, hpar, b1, r1', s2, Proc.bind_assoc]
  refine .head (.send1 ..) (.head (.send1 ..) ?_)
  simp only [Proc.ret_bind', List.nil_append, List.cons_append]
  have e5 : (rdBools 1).run [1#8] = some ([true], []) := by decide
  refine (steps_read1 _ _ _ _ e5 _ _ _).trans ?_
  have a1 : accumulate 2 [[70368798965761, 65536]] [true] = [70368798965761, 65536] := by decide
  have s3 : encFmpzs [70368798965761, 65536] = some ([1, 0, 68, 3, 0, 64, 0, 0, 0, 0, 1, 0, 0, 0, 0, 0] : Bytes) := by
    rw [encFmpzs_of_fits _ (by simp [Fits])]; decide
  simp only [a1, s3]
  refine .head (.send1 ..) ?_
  simp only [Proc.ret_bind', List.nil_append, List.cons_append]
  refine .head (.send0 ..) ?_
  simp only [Proc.ret_bind', List.nil_append]
  have b2 : encBools (List.replicate [keyA].length true) = [1#8] := by decide
  rw [b2]
  have e6 := rdFmpzs_any (n := 2) (by decide) ([0, 0, 0, 1, 0, 0, 0, 0, 0] : Bytes)
    (d := [1, 1, 0, 69, 3, 0, 64, 0, 0, 1, 0, 68, 3, 0, 64, 0]) rfl
  refine (steps_read0 _ _ _ _ e6 _ _ _).trans ?_
  exact .refl _

theorem session_cons {c : StoreCfg} {g0 g1 : StoreRng} {nbits : ℕ} {coef : ℕ → ℤ} {e0 e1 : Env} {es0 es1 : List Env} {s0 s1 s0' s1' t0 t1 : Srv}
    {a b : Answer} {as bs : List Answer} {q r q' r' q'' r'' : Bytes}
    (h : RunsQ q r (iteration false c g0 nbits coef e0 s0) (iteration true c g1 nbits coef e1 s1) (a, s0') (b, s1') q' r')
    (h' : RunsQ q' r' (session false c g0 nbits coef es0 s0') (session true c g1 nbits coef es1 s1') (as, t0) (bs, t1) q'' r'') :
    RunsQ q r (session false c g0 nbits coef (e0 :: es0) s0) (session true c g1 nbits coef (e1 :: es1) s1) (a :: as, t0) (b :: bs, t1) q'' r'' := by
  unfold session
  exact h.bind (h'.bind (RunsQ.ret _ _ _ _))

theorem session_nil {c : StoreCfg} {g0 g1 : StoreRng} {nbits : ℕ} {coef : ℕ → ℤ} {s0 s1 : Srv} {q r : Bytes} :
    RunsQ q r (session false c g0 nbits coef [] s0) (session true c g1 nbits coef [] s1) ([], s0) ([], s1) q r := RunsQ.ret _ _ _ _

/-- The servers at the beginning of the witness: the check point has been used a million times, server 0's part. -/
def skewSrv0 (n : ℕ) : Srv :=
  ⟨⟨RootTables.start, [], 5, 1000000, 0⟩, ⟨List.replicate 2 ⟨0, false⟩ ++ skewBits0 ++ List.replicate n ⟨0, false⟩, [], 0⟩⟩

/-- Server 1's part. -/
def skewSrv1 (n : ℕ) : Srv :=
  ⟨⟨RootTables.start, [], 5, 1000000, 0⟩, ⟨List.replicate 2 ⟨0, false⟩ ++ skewBits1 ++ List.replicate n ⟨0, false⟩, [], 0⟩⟩

theorem zeroBits_ok (n : ℕ) : List.Forall₂ (DaOk intModulus) (List.replicate n ⟨0, false⟩) (List.replicate n ⟨0, false⟩) := by
  induction n with
  | zero => exact .nil
  | succ n ih =>
    rw [List.replicate_succ]
    refine .cons ?_ ih
    unfold DaOk DaBitPair
    simp [Canon]
    decide

theorem skew_inStep (n : ℕ) : InStep ⟨5, 1000000, 0⟩ (skewSrv0 n) (skewSrv1 n) := by
  have hc : Canon 5 intModulus := by simp only [Canon]; decide
  exact ⟨⟨rfl, hc, rfl, rfl, ⟨[], .start⟩, by simp [skewSrv0]⟩, ⟨rfl, hc, rfl, rfl, ⟨[], .start⟩, by simp [skewSrv1]⟩,
    ⟨forall2_append (forall2_append (zeroBits_ok 2) skewBits_ok) (zeroBits_ok n), .nil⟩⟩

/-- The streams of the first two queries: one honest FREQ client with two buckets, voting for bucket 0. -/
def skewFreq (share : List Bool) : Env := plainEnv (encInit ⟨10, 1, 0⟩ ++ encFreqShares [(keyA, share)])

/-- C50 is false. There are servers in step such that the following session ends, in every schedule, with different check points at the two servers: twice
one honest FREQ client, a VAR or STDDEV query with one admissible submission at server 1 (and any submissions at server 0), any unknown message. Server 1's
check point is its draw; server 0 has taken bytes of the sums of the VAR query for it and has 0. (Both FREQ batches pass server 0's batch check.) -/
theorem C50_false_after_freq (c : StoreCfg) {g0 g1 : StoreRng} (hg : GoodRng intModulus g0) (coef : ℕ → ℤ) {std : Bool} {a : List (Bytes × SnipRow)}
    {k : Bytes} {row : SnipRow} {v0 v1 w0 w1 : Env} (hv : (Batch.var std a [(k, row)]).Arrives 1 v0.stream v1.stream) (hrow : varFits 1 row = true)
    (ho : ∀ α : Type, IsOrder (v1.ord (α := α))) {t : BitVec 32} (hw : (Batch.idle t).Arrives 1 w0.stream w1.stream) (ht : (Batch.idle t).Ok 1)
    (hd : Canon w1.draw intModulus) :
    ∃ y s0 s1, InStep y s0 s1 ∧ ∃ as bs s0' s1' q r,
      Ends (session false c g0 1 coef [skewFreq [true, false], skewFreq [false, false], v0, w0] s0)
        (session true c g1 1 coef [skewFreq [false, false], skewFreq [true, false], v1, w1] s1) (as, s0') (bs, s1') q r ∧
      s0'.snip.x = 0 ∧ s1'.snip.x = w1.draw := by
  set n := c.batch * c.nbits / 2 with hn
  have hI := skew_inStep n
  refine ⟨_, _, _, hI, ?_⟩
  have harr : (Batch.freq [(keyA, [true, false])] [(keyA, [false, false])]).Arrives 1 (skewFreq [true, false]).stream (skewFreq [false, false]).stream :=
    ⟨_, _, ⟨by decide, 0, by simp, rfl⟩, freqStream_of rfl (by decide), ⟨by decide, 0, by simp, rfl⟩, freqStream_of rfl (by decide)⟩
  have hcard : (keysOf [(keyA, [false, false])]).card = 1 := by decide
  obtain ⟨p0, p1, hF, hI1, -, ⟨d0, e0⟩, d1, e1⟩ := iteration_freq c (g1 := g1) hg coef hI (by norm_num) (by rw [hcard]; simp [skewSrv0, skewBits0]; omega) harr
    (by norm_num) (by decide) (by decide) (by decide) (plain_order _)
  rw [hcard] at hF e0 e1
  have hb1 : encBools (List.replicate 1 true) = [1#8] := by decide
  rw [hb1] at hF
  have e0 : p0.cor.dabits = skewBits0 ++ (List.replicate n ⟨0, false⟩ ++ d0) := by rw [e0]; simp [skewSrv0]
  have e1 : p1.cor.dabits = skewBits1 ++ (List.replicate n ⟨0, false⟩ ++ d1) := by rw [e1]; simp [skewSrv1]
  obtain ⟨sn0, ⟨da0, tr0, n0⟩⟩ := p0
  obtain ⟨sn1, ⟨da1, tr1, n1⟩⟩ := p1
  obtain rfl : da0 = _ := e0
  obtain rfl : da1 = _ := e1
  have u0 : sn0.uses ≤ 1000000 := hI1.sn0.huses.le
  have u1 : sn1.uses ≤ 1000000 := hI1.sn1.huses.le
  -- the second FREQ query
  obtain ⟨ans, hF2⟩ := freq_skew c (g0 := g0) (g1 := g1) (t0 := List.replicate n ⟨0, false⟩ ++ d0) (t1 := List.replicate n ⟨0, false⟩ ++ d1) tr0 tr1 n0 n1
  have i0 : iteration false c g0 1 coef (skewFreq [false, false]) ⟨sn0, ⟨skewBits0 ++ (List.replicate n ⟨0, false⟩ ++ d0), tr0, n0⟩⟩ =
      (freq0 c g0 2 1 [(keyA, [false, false])] ⟨skewBits0 ++ (List.replicate n ⟨0, false⟩ ++ d0), tr0, n0⟩).bind fun r => .ret (.hist r.1, ⟨sn0, r.2⟩) := by
    have v := freqStream_of (w := 2) (s := encFreqShares [(keyA, [false, false])]) rfl (by decide)
    have ho : Opens 10#32 1 none (skewFreq [false, false]).stream (encFreqShares [(keyA, [false, false])]) := ⟨by decide, 0, by simp, rfl⟩
    obtain ⟨m, -, q, k⟩ := ho.run
    unfold iteration
    rw [maybeRefresh_none u0, maybeUpdate_full _ _ (by simp [skewBits0]; omega)]
    simp only [Proc.ret_bind', dispatch0, q, Proc.ofOption, k]
    obtain ⟨r, e⟩ := v
    have e' : freqOp0 c g0 1 1 (encFreqShares [(keyA, [false, false])]) ⟨skewBits0 ++ (List.replicate n ⟨0, false⟩ ++ d0), tr0, n0⟩ =
        freq0 c g0 2 1 [(keyA, [false, false])] ⟨skewBits0 ++ (List.replicate n ⟨0, false⟩ ++ d0), tr0, n0⟩ := by
      unfold freqOp0 freqWidth freqIntake
      rw [if_pos (by norm_num)]
      show Proc.bind (Proc.ofOption (Option.map _ (((rdFreqShare 2).rep 1).run _))) _ = _
      rw [show (1 : ℕ) = [(keyA, [false, false])].length from rfl, e]; rfl
    rw [← e']
    rfl
  have i1 : iteration true c g1 1 coef (skewFreq [true, false]) ⟨sn1, ⟨skewBits1 ++ (List.replicate n ⟨0, false⟩ ++ d1), tr1, n1⟩⟩ =
      (freq1 c g1 2 [(keyA, [true, false])] ⟨skewBits1 ++ (List.replicate n ⟨0, false⟩ ++ d1), tr1, n1⟩).bind fun r => .ret (.hist r.1, ⟨sn1, r.2⟩) := by
    have v := freqStream_of (w := 2) (s := encFreqShares [(keyA, [true, false])]) rfl (by decide)
    have ho : Opens 10#32 1 none (skewFreq [true, false]).stream (encFreqShares [(keyA, [true, false])]) := ⟨by decide, 0, by simp, rfl⟩
    obtain ⟨m, -, q, k⟩ := ho.run
    unfold iteration
    rw [maybeRefresh_none u1, maybeUpdate_full _ _ (by simp [skewBits1]; omega)]
    simp only [Proc.ret_bind', dispatch1, q, Proc.ofOption, k]
    obtain ⟨r, e⟩ := v
    have e' : freqOp1 c g1 1 1 (encFreqShares [(keyA, [true, false])]) (skewFreq [true, false]).ord
        ⟨skewBits1 ++ (List.replicate n ⟨0, false⟩ ++ d1), tr1, n1⟩ =
        freq1 c g1 2 [(keyA, [true, false])] ⟨skewBits1 ++ (List.replicate n ⟨0, false⟩ ++ d1), tr1, n1⟩ := by
      unfold freqOp1 freqWidth freqIntake
      rw [if_pos (by norm_num)]
      show Proc.bind (Proc.ofOption (Option.map _ (((rdFreqShare 2).rep 1).run _))) _ = _
      rw [show (1 : ℕ) = [(keyA, [true, false])].length from rfl, e]; rfl
    rw [← e']
    rfl
  have hR2 := hF2.thenRet (fun r => (Answer.hist r.1, (⟨sn0, r.2⟩ : Srv))) fun r => (Answer.hist r.1, (⟨sn1, r.2⟩ : Srv))
  rw [← i0, ← i1] at hR2
  -- the VAR query
  obtain ⟨r0, r1, o0, z0, o1, z1⟩ := hv
  have hsz : ∀ rest, rdSize.run (([0, 0, 0, 1, 0, 0, 0, 0] : Bytes) ++ rest) = some (1#64, rest) := by
    intro rest
    refine (Reads.getRet (n := 8) (bs := ([0, 0, 0, 1, 0, 0, 0, 0] : Bytes)) rfl rest).trans ?_
    rfl
  obtain ⟨va, st0', st1', vb, pos', hV, S0, S1⟩ := var_skew v0.fma std (nbits := 1) (by norm_num) z0 z1 (by rw [C49_var_range (by norm_num)]; exact hrow)
    hI1.sn0 hI1.sn1 coef v0.raw v1.raw v1.ord (ho _) 1#8 0#8 (t := ([0, 0, 0, 1, 0, 0, 0, 0] : Bytes)) hsz
  have j0 : iteration false c g0 1 coef v0 ⟨sn0, ⟨List.replicate n ⟨0, false⟩ ++ d0, tr0, n0⟩⟩ =
      (varOp0 v0.fma std 1 a.length r0 coef v0.raw sn0).bind fun r => .ret (.real r.1, ⟨r.2, ⟨List.replicate n ⟨0, false⟩ ++ d0, tr0, n0⟩⟩) := by
    obtain ⟨m, -, q, k⟩ := o0.run
    unfold iteration
    rw [maybeRefresh_none u0, maybeUpdate_full _ _ (by simp; omega)]
    cases std <;> simp only [Proc.ret_bind', dispatch0, q, Proc.ofOption, k] <;> rfl
  have j1 : iteration true c g1 1 coef v1 ⟨sn1, ⟨List.replicate n ⟨0, false⟩ ++ d1, tr1, n1⟩⟩ =
      (varOp1 1 [(k, row)].length r1 coef v1.raw sn1 v1.ord).bind fun r => .ret (.real r.1, ⟨r.2, ⟨List.replicate n ⟨0, false⟩ ++ d1, tr1, n1⟩⟩) := by
    obtain ⟨m, -, q, k⟩ := o1.run
    unfold iteration
    rw [maybeRefresh_none u1, maybeUpdate_full _ _ (by simp; omega)]
    cases std <;> simp only [Proc.ret_bind', dispatch1, q, Proc.ofOption, k] <;> rfl
  have hR3 := hV.thenRet (fun r => (Answer.real r.1, (⟨r.2, ⟨List.replicate n ⟨0, false⟩ ++ d0, tr0, n0⟩⟩ : Srv)))
    fun r => (Answer.real r.1, (⟨r.2, ⟨List.replicate n ⟨0, false⟩ ++ d1, tr1, n1⟩⟩ : Srv))
  rw [← j0, ← j1] at hR3
  -- the refresh
  obtain ⟨b0, f0, -⟩ := refreshStore_ok (x' := 0) (zero_canon goodModulus) st0'.store S0.store
  obtain ⟨b1, f1, -⟩ := refreshStore_ok hd st1'.store S1.store
  have hR4 : RunsQ [vb] (List.replicate 9 0#8) (iteration false c g0 1 coef w0 ⟨st0', ⟨List.replicate n ⟨0, false⟩ ++ d0, tr0, n0⟩⟩)
      (iteration true c g1 1 coef w1 ⟨st1', ⟨List.replicate n ⟨0, false⟩ ++ d1, tr1, n1⟩⟩)
      (.idle, ⟨{ st0' with x := 0, uses := 0, store := b0 }, ⟨List.replicate n ⟨0, false⟩ ++ d0, tr0, n0⟩⟩)
      (.idle, ⟨{ st1' with x := w1.draw, uses := 0, store := b1 }, ⟨List.replicate n ⟨0, false⟩ ++ d1, tr1, n1⟩⟩) [vb] (0#8 :: fmpzBytes w1.draw) := by
    intro γ δ κ0 κ1
    obtain ⟨m0, m1, x0, x1, y0, y1⟩ := hw
    obtain ⟨mx0, -, q0, k0⟩ := y0.run
    obtain ⟨mx1, -, q1, k1⟩ := y1.run
    simp only [Batch.Ok, List.mem_cons, List.not_mem_nil, or_false, not_or] at ht
    obtain ⟨h1, h2, h3, h4, h5, h6, h7, h8, h9, h10⟩ := ht
    unfold iteration maybeRefresh randomXThreshold
    rw [S0.huses, S1.huses, if_pos (by norm_num), if_pos (by norm_num), maybeUpdate_full _ _ (by simp; omega), maybeUpdate_full _ _ (by simp; omega)]
    simp only [Proc.bind_assoc, syncRandomX, if_true, Bool.false_eq_true, if_false, encFmpz_of_fits (fits_canon hd), Proc.putOpt]
    refine .head (.send1 ..) ?_
    have e : rdFmpz.run (List.replicate 9 0#8 ++ fmpzBytes w1.draw) = some (0, 0#8 :: fmpzBytes w1.draw) :=
      Reads.getRet (k := fun bs => (leVal bs : ℤ)) (n := 8) (bs := List.replicate 8 0#8) rfl (0#8 :: fmpzBytes w1.draw)
    refine (steps_read0 _ _ _ _ e _ _ _).trans ?_
    simp only [f0, f1, Proc.ofOption, Proc.ret_bind', dispatch0, dispatch1, q0, q1, h1, h2, h3, h4, h5, h6, h7, h8, h9, h10, if_false]
    exact .refl _
  have hS := session_cons hF.toQ (session_cons hR2 (session_cons hR3 (session_cons hR4 session_nil)))
  exact ⟨_, _, _, _, _, _, hS.ends, rfl, rfl⟩

/-- A concrete case: one submission of zeros under one key at both servers, then message type 0; server 1 draws 7. -/
example (c : StoreCfg) {g0 g1 : StoreRng} (hg : GoodRng intModulus g0) (coef : ℕ → ℤ) :
    ∃ y s0 s1 e0 e1, InStep y s0 s1 ∧ ∃ as bs s0' s1' q r, Ends (session false c g0 1 coef e0 s0) (session true c g1 1 coef e1 s1) (as, s0') (bs, s1') q r ∧
      s0'.snip.x = 0 ∧ s1'.snip.x = 7 := by
  obtain ⟨subs, h⟩ := C49_var_any_stream 1 (List.replicate 120 0#8) (by simp)
  have hs : subs = [(List.replicate 32 0#8, ⟨[0#64, 0#64], ⟨[0], 0, 0, 0, [0, 0], ⟨0, 0, 0⟩⟩⟩)] := by
    obtain ⟨rest, h⟩ := h
    have e : ((rdVarShare 1).rep 1).run (List.replicate 120 0#8) =
      some ([(List.replicate 32 0#8, ⟨[0#64, 0#64], ⟨[0], 0, 0, 0, [0, 0], ⟨0, 0, 0⟩⟩⟩)], []) := by decide +kernel
    rw [e] at h
    cases h; rfl
  subst hs
  have hv : (Batch.var false [(List.replicate 32 0#8, ⟨[0#64, 0#64], ⟨[0], 0, 0, 0, [0, 0], ⟨0, 0, 0⟩⟩⟩)]
      [(List.replicate 32 0#8, ⟨[0#64, 0#64], ⟨[0], 0, 0, 0, [0, 0], ⟨0, 0, 0⟩⟩⟩)]).Arrives 1
      (plainEnv (encInit ⟨7, 1, 0⟩ ++ List.replicate 120 0#8)).stream (plainEnv (encInit ⟨7, 1, 0⟩ ++ List.replicate 120 0#8)).stream :=
    ⟨_, _, ⟨by decide, 0, by simp, rfl⟩, h, ⟨by decide, 0, by simp, rfl⟩, h⟩
  have hw : (Batch.idle 0).Arrives 1 (plainEnv (encInit ⟨0, 0, 0⟩)).stream ({ plainEnv (encInit ⟨0, 0, 0⟩) with draw := 7 } : Env).stream :=
    ⟨0, 0, [], [], ⟨by decide, 0, by simp, by rw [List.append_nil]; rfl⟩, ⟨by decide, 0, by simp, by rw [List.append_nil]; rfl⟩⟩
  obtain ⟨y, s0, s1, hI, hE⟩ := C50_false_after_freq c (g1 := g1) hg coef hv (by decide) (plain_order _) hw (by simp [Batch.Ok])
    (by simp only [Canon]; decide)
  exact ⟨y, s0, s1, _, _, hI, hE⟩

end Verif

import Verif.PropsEndLin

/-!
# C59, continued: FREQ from the client program to the histogram printed by server 0
-/

namespace Verif

/-- An iteration with a FREQ batch whose weights add up to the number of submissions: the answer, and what is left in the channel. -/
theorem iteration_freq_left (c : StoreCfg) {g0 g1 : StoreRng} (hg : GoodRng intModulus g0) {nbits : ℕ} (hb : nbits ≤ 30) (coef : ℕ → ℤ) {n0 n1 : ℕ}
    {a b : List (Bytes × List Bool)} {e0 e1 : Env} {r0 r1 : Bytes} (o0 : Opens 10#32 n0 none e0.stream r0) (v0 : FreqStream (2 ^ nbits) n0 r0 a)
    (o1 : Opens 10#32 n1 none e1.stream r1) (v1 : FreqStream (2 ^ nbits) n1 r1 b) (hcap : (keysOf b).card ≤ n0)
    (hsz : (keysOf b).card * 2 ^ nbits < 2 ^ 32) (hW : totalWeight (2 ^ nbits) a b = n0) (ho : ∀ α : Type, IsOrder (e1.ord (α := α)))
    (hd : Canon e1.draw intModulus) {y : Shared} {s0 s1 : Srv} (hs : InStep y s0 s1) :
    ∃ s0' s1', RunsTo [] (iteration false c g0 nbits coef e0 s0) (iteration true c g1 nbits coef e1 s1)
        (.hist (verdict (keysOf b).card n0 (histogram (2 ^ nbits) (keysOf b) (freqVec (2 ^ nbits) a b))), s0') (.hist .noAns, s1')
        (encBools (List.replicate (keysOf b).card true)) ∧ InStep (y.refresh e1.draw) s0' s1' := by
  obtain ⟨t0, t1, hP, q0, q1⟩ := maybeRefresh_pair hs.sn0 hs.sn1 hd e0.draw
  obtain ⟨c0, c1, hM, hstep⟩ := maybeUpdate_pair goodModulus c g0 g1 hg s0.cor s1.cor hs.cor
  obtain ⟨m0, -, p0, k0⟩ := o0.run
  obtain ⟨m1, -, p1, k1⟩ := o1.run
  obtain ⟨st0', st1', hda, hL, -⟩ := freqOp_run c (g1 := g1) hg hb o0.1 v0 v1 hcap hsz hstep.ok e1.ord (ho _)
  have hL : RunsTo [] _ _ _ _ _ := hL hW
  refine ⟨⟨t0, st0'⟩, ⟨t1, st1'⟩, ?_, ⟨q0, q1, hda.ok⟩⟩
  have hP : RunsTo [] _ _ _ _ [] := hP
  have hM : RunsTo [] _ _ _ _ [] := hM
  refine hP.bind (hM.bind ?_)
  simp only [dispatch0, dispatch1, p0, p1, Proc.ofOption, Proc.bind, k0, k1, if_true]
  exact hL.thenRet (fun r => (Answer.hist r.1, (⟨t0, r.2⟩ : Srv))) fun r => (Answer.hist r.1, (⟨t1, r.2⟩ : Srv))

theorem freqAns_eq {nbits : ℕ} {rows : List (Row U64 (List Bool))} (h : ∀ r ∈ rows, r.real.toNat < 2 ^ nbits) :
    freqAns nbits rows = (List.range (2 ^ nbits)).map fun j => (rows.map fun r => r.real.toNat).count j := by
  have key : ∀ (l : List (Row U64 (List Bool))) (s : List ℕ), (∀ r ∈ l, r.real.toNat < s.length) →
      (l.foldl (fun s r => s.set r.real.toNat (s.getD r.real.toNat 0 + 1)) s) =
        (List.range s.length).map fun j => s.getD j 0 + (l.map fun r => r.real.toNat).count j := by
    intro l
    induction l with
    | nil =>
      intro s _
      apply List.ext_getElem (by simp)
      intro i h1 h2
      simp only [List.foldl_nil] at h1
      simp [List.getD_eq_getElem?_getD, List.getElem?_eq_getElem h1]
    | cons r l ih =>
      intro s hs
      rw [List.foldl_cons, ih _ (by intro q hq; rw [List.length_set]; exact hs q (List.mem_cons_of_mem _ hq)), List.length_set]
      refine List.map_congr_left fun j hj => ?_
      have hr := hs r List.mem_cons_self
      have hj := List.mem_range.1 hj
      rw [List.map_cons, List.count_cons, List.getD_eq_getElem _ _ (by simpa using hj), List.getElem_set]
      by_cases e : r.real.toNat = j
      · simp [e]; omega
      · simp [e, List.getD_eq_getElem?_getD, List.getElem?_eq_getElem hj]
  rw [freqAns, key _ _ (by simpa using h)]
  rw [List.length_replicate]
  refine List.map_congr_left fun j hj => ?_
  rw [List.getD_eq_getElem _ _ (by simpa using hj)]
  simp

/-- C59 for FREQ, up to 30 bits: whatever the client program draws, server 0 answers with the number of submissions of every value, and this is
what the client program prints. The batch check holds for such a run, so the validity bytes of C47 stay behind in the channel. -/
theorem C59_freq (c : StoreCfg) {g0 g1 : StoreRng} (hg : GoodRng intModulus g0) {nbits : ℕ} (hb : nbits ≤ 30) (coef : ℕ → ℤ) {n : ℕ}
    (hsz : n * 2 ^ nbits < 2 ^ 32) (g : Prg) (hk : ((uploadLoop (freqOne nbits) n g).map (·.pk)).Nodup) {e0 e1 : Env} {s0 s1 : Srv}
    (h : Ready e0 e1 s0 s1 (freqClient nbits n g).1 (freqClient nbits n g).2.1) :
    ∃ s0' s1', Ends (iteration false c g0 nbits coef e0 s0) (iteration true c g1 nbits coef e1 s1)
        (.hist (.ans ((List.range (2 ^ nbits)).map fun j => ((((uploadLoop (freqOne nbits) n g).map fun r => r.real.toNat).count j : ℕ) : ℤ))), s0')
        (.hist .noAns, s1') (encBools (List.replicate n true)) [] ∧
      (∃ y, InStep y s0' s1') ∧
      (freqClient nbits n g).2.2 = (List.range (2 ^ nbits)).map fun j => ((uploadLoop (freqOne nbits) n g).map fun r => r.real.toNat).count j := by
  obtain ⟨y, hy⟩ := h.step
  set rows := uploadLoop (freqOne nbits) n g with hrows
  have hlen : rows.length = n := upload_length _ _ _
  have hn : n < 2 ^ 32 := lt_of_le_of_lt (Nat.le_mul_of_pos_right _ (by positivity)) hsz
  have hmx : (1#64 <<< nbits : U64).toNat = 2 ^ nbits := shl_toNat (by omega)
  have hrow : ∀ r ∈ rows, ∃ raw arr, r.real.toNat = raw.toNat % 2 ^ nbits ∧ arr.length = 2 ^ nbits ∧ (r.share0, r.share1) = clientFreq nbits raw arr := by
    intro r hr
    obtain ⟨g', rfl⟩ := upload_mem hr
    refine ⟨g'.word.1, (g'.word.2.bools (1#64 <<< nbits : U64).toNat).1, mod_shl (by omega) _, ?_, rfl⟩
    simp [Prg.bools, hmx]
  have hreal : ∀ r ∈ rows, r.real.toNat < 2 ^ nbits := by
    intro r hr
    obtain ⟨raw, arr, e, -⟩ := hrow r hr
    rw [e]; exact Nat.mod_lt _ (by positivity)
  have hprinted : (freqClient nbits n g).2.2 = (List.range (2 ^ nbits)).map fun j => (rows.map fun r => r.real.toNat).count j := freqAns_eq hreal
  have hvec : ∀ r ∈ rows, r.share0.length = 2 ^ nbits ∧ r.share1.length = 2 ^ nbits ∧
      List.zipWith (fun a b => a ^^ b) r.share0 r.share1 = (List.range (2 ^ nbits)).map fun j => decide (j = r.real.toNat) := by
    intro r hr
    obtain ⟨raw, arr, e, hl, hsh⟩ := hrow r hr
    obtain ⟨a1, a2, a3⟩ := clientFreq_vec hb raw hl
    rw [← hsh] at a1 a2 a3
    rw [e]
    exact ⟨a1, a2, a3⟩
  obtain ⟨k0, k1⟩ := upload_keyed (one := freqOne nbits) (n := n) (g := g)
  have l0 : (sent0 rows).length = n := by simp [sent0, hlen]
  have l1 : (sent1 rows).length = n := by simp [sent1, hlen]
  have f0 : FreqStream (2 ^ nbits) n (encFreqShares (sent0 rows)) (sent0 rows) := by
    have := freq_stream (w := 2 ^ nbits) (subs := sent0 rows) (fun e he => by
      refine ⟨k0 e he, ?_⟩
      obtain ⟨r, hr, rfl⟩ := List.mem_map.1 he
      exact (hvec r hr).1) []
    rwa [List.append_nil, l0] at this
  have f1 : FreqStream (2 ^ nbits) n (encFreqShares (sent1 rows)) (sent1 rows) := by
    have := freq_stream (w := 2 ^ nbits) (subs := sent1 rows) (fun e he => by
      refine ⟨k1 e he, ?_⟩
      obtain ⟨r, hr, rfl⟩ := List.mem_map.1 he
      exact (hvec r hr).2.1) []
    rwa [List.append_nil, l1] at this
  have hks : keysOf (sent1 rows) = (rows.map (·.pk)).toFinset := keysOf_perm (cs := rows) (pk := (·.pk)) (f := (·.share1)) (List.Perm.refl _)
  have hcard : (keysOf (sent1 rows)).card = n := by rw [hks, List.toFinset_card_of_nodup hk, List.length_map, hlen]
  obtain ⟨hfo, -⟩ := bothKeys_honest_ok (ok := anyRow) rows (·.pk) (·.share0) (·.share1) hk (fun _ _ => rfl) (fun _ _ => rfl)
    (sent0 rows) (sent1 rows) (List.Perm.refl _) (List.Perm.refl _)
  have hfv : ∀ r ∈ rows, freqVec (2 ^ nbits) (sent0 rows) (sent1 rows) r.pk = (List.range (2 ^ nbits)).map fun j => decide (j = r.real.toNat) := by
    intro r hr
    unfold freqVec
    rw [(hfo r hr).1, (hfo r hr).2]
    exact (hvec r hr).2.2
  have hW : totalWeight (2 ^ nbits) (sent0 rows) (sent1 rows) = n := by
    unfold totalWeight
    rw [Finset.sum_congr rfl (g := fun _ => 1) (fun k hk' => ?_), Finset.sum_const, hcard, smul_eq_mul, mul_one]
    rw [hks, List.mem_toFinset] at hk'
    obtain ⟨r, hr, rfl⟩ := List.mem_map.1 hk'
    rw [hfv r hr, weight_unit (hreal r hr)]
  obtain ⟨s0', s1', hR, hI⟩ := iteration_freq_left c (g1 := g1) hg hb coef (e0 := e0) (e1 := e1) (by rw [h.stream0]; exact opens_init _ hn _ _) f0
    (by rw [h.stream1]; exact opens_init _ hn _ _) f1 hcard.le (by rw [hcard]; exact hsz) hW h.ord h.draw hy
  refine ⟨s0', s1', ?_, ⟨_, hI⟩, hprinted⟩
  have hhist : histogram (2 ^ nbits) (keysOf (sent1 rows)) (freqVec (2 ^ nbits) (sent0 rows) (sent1 rows)) =
      (List.range (2 ^ nbits)).map fun j => (((rows.map fun r => r.real.toNat).count j : ℕ) : ℤ) := by
    unfold histogram
    refine List.map_congr_left fun j hj => ?_
    congr 1
    rw [List.count_eq_length_filter, List.filter_map, List.length_map]
    have hn' : ((rows.filter ((fun x => x == j) ∘ fun r => r.real.toNat)).map (·.pk)).Nodup := hk.sublist ((List.filter_sublist).map _)
    rw [← List.length_map (f := (·.pk)), ← List.toFinset_card_of_nodup hn', hks]
    congr 1
    ext k
    simp only [Finset.mem_filter, List.mem_toFinset, List.mem_map, List.mem_filter, Function.comp_apply, beq_iff_eq]
    have hjw := List.mem_range.1 hj
    constructor
    · rintro ⟨⟨r, hr, rfl⟩, h⟩
      rw [hfv r hr] at h
      refine ⟨r, ⟨hr, ?_⟩, rfl⟩
      simp [List.getD_eq_getElem?_getD, hjw] at h
      exact h.symm
    · rintro ⟨r, ⟨hr, rfl⟩, rfl⟩
      refine ⟨⟨r, hr, rfl⟩, ?_⟩
      rw [hfv r hr]
      simp [List.getD_eq_getElem?_getD, hjw]
  rw [hcard, verdict_full, hhist] at hR
  exact hR.ends

/-- A thousand submissions of FREQ and MAX, a million of AND, at freshly started servers: the keys are distinct. -/
example : ((uploadLoop (freqOne 10) 1000 plainPrg).map (·.pk)).Nodup ∧ ((uploadLoop (maxOne true (2 ^ 10)) 1000 plainPrg).map (·.pk)).Nodup ∧
    ((uploadLoop (xorOne true) 1000000 plainPrg).map (·.pk)).Nodup :=
  ⟨C59_keys_distinct (C59_freq_blocks 10) plainPrg_steady plainPrg_injective (by decide),
    C59_keys_distinct (C59_max_blocks true (2 ^ 10)) plainPrg_steady plainPrg_injective (by decide),
    C59_keys_distinct (C59_xor_blocks true) plainPrg_steady plainPrg_injective (by decide)⟩

/-- Small runs of FREQ, MAX, MIN, AND and OR: what is submitted and what is printed. -/
example : (freqClient 2 3 plainPrg).2.2 = [1, 0, 1, 1] ∧ (maxClient true 2 2 plainPrg).2.2 = 2 ∧ (maxClient false 2 2 plainPrg).2.2 = 0 ∧
    (xorClient true 2 0 plainPrg).2.2 = false ∧ (xorClient false 2 0 plainPrg).2.2 = true := by decide +kernel

end Verif

import Verif.PropsEndVar

/-!
# C59, continued: LINREG from the client program to the coefficients printed by server 0
-/

namespace Verif

/-- The blocks one submission of degree `d` takes. -/
def linBlocks (d : ℕ) : ℕ := 3 * ((d - 1 + 1) / 2) + (numQuad d + 1) / 2 + 2

theorem linDraws_next (d : ℕ) (g : Prg) : (linDraws d g).2 = { g with pos := g.pos + linBlocks d } := by
  simp only [linDraws, Prg.words, Prg.word, linBlocks, Prg.mk.injEq, true_and]
  omega

/-- The submissions of a run, with their draws. -/
def linClients (d : ℕ) : List SnipRand → Prg → List LinClient
  | [], _ => []
  | r :: rs, g => ⟨makePk (linDraws d g).2, (linDraws d g).1, r⟩ :: linClients d rs (linDraws d g).2

theorem linClients_keys (d : ℕ) : ∀ (rs : List SnipRand) (g : Prg), (linClients d rs g).map (·.pk) = (uploadLoop (skipOne (linBlocks d)) rs.length g).map (·.pk)
  | [], _ => rfl
  | r :: rs, g => by
    rw [linClients, List.map_cons, linClients_keys d rs, linDraws_next]
    rfl

theorem linClients_rand (d : ℕ) : ∀ (rs : List SnipRand) (g : Prg), (linClients d rs g).map (·.rand) = rs
  | [], _ => rfl
  | r :: rs, g => by rw [linClients, List.map_cons, linClients_rand d rs]

theorem linClients_sized (d : ℕ) : ∀ (rs : List SnipRand) (g : Prg), ∀ c ∈ linClients d rs g, c.Sized d
  | [], _, c, h => by cases h
  | r :: rs, g, c, h => by
    rcases List.mem_cons.1 h with rfl | h
    · exact ⟨C54_length _, by simp [linDraws, Prg.words], by simp [linDraws, Prg.words], by simp [linDraws, Prg.words], by simp [linDraws, Prg.words]⟩
    · exact linClients_sized d rs _ c h

theorem linLoop_rows {d : ℕ} (hd : 1 ≤ d) (hsm : linMul d < 2 ^ 18) {nbits : ℕ} (hb : nbits ≤ 31) {c : Circuit} (hcirc : checkLinReg intModulus d = some c)
    {t : RootTables} {l : List ℕ} (hrc : RootCalls (npow2 (linMul d) :: l) t) : ∀ (rs : List SnipRand) (g : Prg) (_ : ∀ r ∈ rs, ValidRand intModulus c r),
    ∃ rows, linLoop d nbits t rs g = some rows ∧
      (sent0 rows).map some = (linClients d rs g).map (fun cl => (clientLin d nbits cl.draws t cl.rand).map fun o => (cl.pk, o.1)) ∧
      (sent1 rows).map some = (linClients d rs g).map (fun cl => (clientLin d nbits cl.draws t cl.rand).map fun o => (cl.pk, o.2)) ∧
      rows.map (·.real) = (linClients d rs g).map (·.draws)
  | [], g, _ => ⟨[], rfl, rfl, rfl, rfl⟩
  | r :: rs, g, h => by
    obtain ⟨rows, e, e0, e1, e2⟩ := linLoop_rows hd hsm hb hcirc hrc rs (linDraws d g).2 fun r hr => h r (List.mem_cons_of_mem _ hr)
    obtain ⟨r0, r1, w, hout, -⟩ := clientLin_spec hd hsm hb hcirc hrc
      (linClients_sized d (r :: rs) g ⟨makePk (linDraws d g).2, (linDraws d g).1, r⟩ List.mem_cons_self) (h r List.mem_cons_self)
    dsimp only at hout
    refine ⟨⟨makePk (linDraws d g).2, (linDraws d g).1, r0, r1⟩ :: rows, ?_, ?_, ?_, ?_⟩
    · rw [linLoop, hout, Option.bind_some, e, Option.map_some]
    · rw [linClients, List.map_cons, hout, sent0, List.map_cons, List.map_cons, ← e0]; rfl
    · rw [linClients, List.map_cons, hout, sent1, List.map_cons, List.map_cons, ← e1]; rfl
    · rw [linClients, List.map_cons, List.map_cons, e2]

/-! ## What the client program prints -/

/-- Pointwise sums of `uint64_t` arrays of the same length, none of which reaches 2^64. -/
theorem fold_zip (m : ℕ) : ∀ (L : List (List U64)) (s : List U64), (∀ v ∈ L, v.length = m) → s.length = m →
    (∀ i < m, (s.getD i 0#64).toNat + (L.map fun v => (v.getD i 0#64).toNat).sum < 2 ^ 64) →
    (L.foldl (fun s v => List.zipWith (· + ·) s v) s).length = m ∧
    ∀ i < m, ((L.foldl (fun s v => List.zipWith (· + ·) s v) s).getD i 0#64).toNat = (s.getD i 0#64).toNat + (L.map fun v => (v.getD i 0#64).toNat).sum
  | [], s, _, hs, _ => ⟨hs, by simp⟩
  | v :: L, s, hv, hs, hlt => by
    have hvl := hv v List.mem_cons_self
    have hz : (List.zipWith (· + ·) s v).length = m := by simp [hs, hvl]
    have hget : ∀ i < m, ((List.zipWith (· + ·) s v).getD i 0#64).toNat = (s.getD i 0#64).toNat + (v.getD i 0#64).toNat := by
      intro i hi
      have := hlt i hi
      rw [List.map_cons, List.sum_cons] at this
      rw [List.getD_eq_getElem _ _ (by omega), List.getElem_zipWith, ← List.getD_eq_getElem s 0#64 (by omega), ← List.getD_eq_getElem v 0#64 (by omega),
        BitVec.toNat_add]
      omega
    obtain ⟨h1, h2⟩ := fold_zip m L (List.zipWith (· + ·) s v) (fun w hw => hv w (List.mem_cons_of_mem _ hw)) hz (by
      intro i hi
      have := hlt i hi
      rw [List.map_cons, List.sum_cons] at this
      rw [hget i hi]; omega)
    refine ⟨h1, fun i hi => ?_⟩
    rw [List.foldl_cons, h2 i hi, hget i hi, List.map_cons, List.sum_cons]
    omega

theorem toNat_list {x : List U64} {n : List ℕ} (hl : x.length = n.length) (h : ∀ i < n.length, (x.getD i 0#64).toNat = n.getD i 0) : x.map (·.toNat) = n := by
  apply List.ext_getElem
  · simpa using hl
  · intro i h1 h2
    have := h i h2
    rw [List.getD_eq_getElem _ _ (by omega), List.getD_eq_getElem _ _ h2] at this
    simpa using this

/-- The values that one submission contributes, as numbers. -/
theorem linRow_nat {nbits : ℕ} (hb : nbits ≤ 31) (cl : LinClient) :
    let x := cl.draws.xReal.map (· % (1#64 <<< nbits))
    let y := cl.draws.yReal % (1#64 <<< nbits)
    x.map (·.toNat) = (cl.data nbits).1 ∧ y.toNat = (cl.data nbits).2 ∧ (clientQuad x).map (·.toNat) = pairProducts (cl.data nbits).1 ∧
      (x.map (· * y)).map (·.toNat) = (cl.data nbits).1.map fun v => (cl.data nbits).2 * v := by
  intro x y
  have hm : ∀ a : U64, (a % (1#64 <<< nbits)).toNat = a.toNat % 2 ^ nbits := mod_shl (by omega)
  have hx : x.map (·.toNat) = (cl.data nbits).1 := by
    simp only [x, List.map_map, LinClient.data]
    exact List.map_congr_left fun a _ => hm a
  have hy : y.toNat = (cl.data nbits).2 := hm _
  have h31 : (2 : ℕ) ^ nbits ≤ 2 ^ 31 := Nat.pow_le_pow_right (by norm_num) hb
  have hlt : ∀ v ∈ x, v.toNat < 2 ^ 31 := by
    intro v hv
    obtain ⟨a, -, rfl⟩ := List.mem_map.1 hv
    rw [hm]
    exact lt_of_lt_of_le (Nat.mod_lt _ (by positivity)) h31
  have hylt : y.toNat < 2 ^ 31 := by
    rw [hm]
    exact lt_of_lt_of_le (Nat.mod_lt _ (by positivity)) h31
  have hmul : ∀ a b : U64, a.toNat < 2 ^ 31 → b.toNat < 2 ^ 31 → (a * b).toNat = a.toNat * b.toNat := by
    intro a b ha hb
    have : a.toNat * b.toNat < 2 ^ 31 * 2 ^ 31 := Nat.mul_lt_mul'' ha hb
    rw [BitVec.toNat_mul, Nat.mod_eq_of_lt (by omega)]
  clear_value x y
  refine ⟨hx, hy, ?_, ?_⟩
  · rw [clientQuad_eq, ← hx]
    exact (pairProducts_map _ fun a ha b hb => hmul a b (hlt a ha) (hlt b hb)).symm
  · rw [← hx, ← hy, List.map_map, List.map_map]
    refine List.map_congr_left fun a ha => ?_
    show (a * y).toNat = y.toNat * a.toNat
    rw [hmul a y (hlt a ha) hylt, mul_comm]

theorem getD_toNat (x : List U64) (i : ℕ) : (x.getD i 0#64).toNat = (x.map (·.toNat)).getD i 0 := by
  simp only [List.getD_eq_getElem?_getD, List.getElem?_map]
  cases x[i]? <;> simp

/-- The sums of the client program are those of the normal equations if none of them reaches 2^64. -/
theorem linSums_eq {d nbits : ℕ} (hd : 1 ≤ d) (hb : nbits ≤ 31) {cs : List LinClient} (hs : ∀ cl ∈ cs, cl.Sized d)
    (hlt : ∀ n ∈ xSums d (cs.map (·.data nbits)) ++ ySums d (cs.map (·.data nbits)), n < 2 ^ 64) :
    (linSums d nbits (cs.map (·.draws))).1.map (·.toNat) = xSums d (cs.map (·.data nbits)) ∧
    (linSums d nbits (cs.map (·.draws))).2.map (·.toNat) = ySums d (cs.map (·.data nbits)) := by
  simp only [List.mem_append] at hlt
  set fx : LinDraws → List U64 := fun dr => let x := dr.xReal.map (· % (1#64 <<< nbits)); 0#64 :: (x ++ clientQuad x) with hfx
  set fy : LinDraws → List U64 := fun dr => (dr.yReal % (1#64 <<< nbits)) :: (dr.xReal.map (· % (1#64 <<< nbits))).map (· * (dr.yReal % (1#64 <<< nbits))) with hfy
  have hpair : ∀ (l : List LinDraws) (a b : List U64), l.foldl (fun s dr =>
      let x := dr.xReal.map (· % (1#64 <<< nbits))
      let y := dr.yReal % (1#64 <<< nbits)
      (List.zipWith (· + ·) s.1 (0#64 :: (x ++ clientQuad x)), List.zipWith (· + ·) s.2 (y :: x.map (· * y)))) (a, b) =
      ((l.map fx).foldl (fun s v => List.zipWith (· + ·) s v) a, (l.map fy).foldl (fun s v => List.zipWith (· + ·) s v) b) := by
    intro l
    induction l with
    | nil => intro a b; rfl
    | cons dr l ih => intro a b; rw [List.foldl_cons, List.map_cons, List.foldl_cons, List.map_cons, List.foldl_cons, ih]
  -- the rows as numbers
  have hnx : ∀ cl ∈ cs, (fx cl.draws).map (·.toNat) = 0 :: ((cl.data nbits).1 ++ pairProducts (cl.data nbits).1) := by
    intro cl hc
    obtain ⟨h1, -, h3, -⟩ := linRow_nat hb cl
    simp only [hfx, List.map_cons, List.map_append, h1, h3]
    rfl
  have hny : ∀ cl ∈ cs, (fy cl.draws).map (·.toNat) = (cl.data nbits).2 :: (cl.data nbits).1.map fun v => (cl.data nbits).2 * v := by
    intro cl hc
    obtain ⟨-, h2, -, h4⟩ := linRow_nat hb cl
    simp only [hfy, List.map_cons, h2, h4]
  have hdl : ∀ cl ∈ cs, (cl.data nbits).1.length = d - 1 := by
    intro cl hc; simp [LinClient.data, (hs cl hc).x]
  have hpl : ∀ cl ∈ cs, (pairProducts (cl.data nbits).1).length = numQuad d := by
    intro cl hc; rw [pairProducts_length, hdl cl hc]; rfl
  have hlx : ∀ v ∈ (cs.map (·.draws)).map fx, v.length = d - 1 + numQuad d + 1 := by
    intro v hv
    obtain ⟨dr, hdr, rfl⟩ := List.mem_map.1 hv
    obtain ⟨cl, hc, rfl⟩ := List.mem_map.1 hdr
    have := congrArg List.length (hnx cl hc)
    rw [List.length_map] at this
    rw [this]
    simp [hdl cl hc, hpl cl hc]
  have hly : ∀ v ∈ (cs.map (·.draws)).map fy, v.length = d - 1 + 1 := by
    intro v hv
    obtain ⟨dr, hdr, rfl⟩ := List.mem_map.1 hv
    obtain ⟨cl, hc, rfl⟩ := List.mem_map.1 hdr
    have := congrArg List.length (hny cl hc)
    rw [List.length_map] at this
    rw [this]
    simp [hdl cl hc]
  -- column sums
  have hcx : ∀ i, (((cs.map (·.draws)).map fx).map fun v => (v.getD i 0#64).toNat) =
      cs.map fun cl => (0 :: ((cl.data nbits).1 ++ pairProducts (cl.data nbits).1)).getD i 0 := by
    intro i
    rw [List.map_map, List.map_map]
    refine List.map_congr_left fun cl hc => ?_
    simp only [Function.comp_apply]
    rw [getD_toNat, hnx cl hc]
  have hcy : ∀ i, (((cs.map (·.draws)).map fy).map fun v => (v.getD i 0#64).toNat) =
      cs.map fun cl => ((cl.data nbits).2 :: (cl.data nbits).1.map fun v => (cl.data nbits).2 * v).getD i 0 := by
    intro i
    rw [List.map_map, List.map_map]
    refine List.map_congr_left fun cl hc => ?_
    simp only [Function.comp_apply]
    rw [getD_toNat, hny cl hc]
  have lenx : (xSums d (cs.map (·.data nbits))).length = d - 1 + numQuad d + 1 := by simp [xSums]
  have leny : (ySums d (cs.map (·.data nbits))).length = d - 1 + 1 := by simp [ySums]
  -- the entries of the sums
  have ex : ∀ i, i + 1 < d - 1 + numQuad d + 1 → (cs.map fun cl => (0 :: ((cl.data nbits).1 ++ pairProducts (cl.data nbits).1)).getD (i + 1) 0).sum =
      (xSums d (cs.map (·.data nbits))).getD (i + 1) 0 := by
    intro i hi
    simp only [xSums, List.cons_append, List.getD_cons_succ]
    by_cases hlt : i < d - 1
    · rw [List.getD_append _ _ _ _ (by simpa using hlt), List.getD_eq_getElem _ _ (by simpa using hlt)]
      simp only [List.getElem_map, List.getElem_range, List.map_map]
      congr 1
      refine List.map_congr_left fun cl hc => ?_
      rw [List.getD_append _ _ _ _ (by rw [hdl cl hc]; exact hlt)]
      rfl
    · rw [List.getD_append_right _ _ _ _ (by simp; omega), List.getD_eq_getElem _ _ (by simp; omega)]
      simp only [List.getElem_map, List.getElem_range, List.map_map, List.length_map, List.length_range]
      congr 1
      refine List.map_congr_left fun cl hc => ?_
      rw [List.getD_append_right _ _ _ _ (by rw [hdl cl hc]; omega), hdl cl hc]
      rfl
  have ey : ∀ i, i < d - 1 + 1 → (cs.map fun cl => ((cl.data nbits).2 :: (cl.data nbits).1.map fun v => (cl.data nbits).2 * v).getD i 0).sum =
      (ySums d (cs.map (·.data nbits))).getD i 0 := by
    intro i hi
    cases i with
    | zero => simp [ySums, List.map_map, Function.comp_def]
    | succ i =>
      simp only [ySums, List.getD_cons_succ]
      rw [List.getD_eq_getElem (d := 0) (l := List.map _ (List.range (d - 1))) (n := i) (by simp; omega)]
      simp only [List.getElem_map, List.getElem_range, List.map_map]
      congr 1
      refine List.map_congr_left fun cl hc => ?_
      have hl : i < (cl.data nbits).1.length := by rw [hdl cl hc]; omega
      rw [List.getD_eq_getElem _ _ (by simpa using hl), List.getElem_map]
      simp only [Function.comp_apply]
      rw [List.getD_eq_getElem _ _ hl]
  have zx : (cs.map fun cl => (0 :: ((cl.data nbits).1 ++ pairProducts (cl.data nbits).1)).getD 0 0).sum = 0 := by simp
  have hrep : ∀ (m i : ℕ), ((List.replicate m 0#64).getD i 0#64).toNat = 0 := by
    intro m i
    by_cases h : i < m
    · rw [List.getD_eq_getElem _ _ (by simpa using h)]; simp
    · rw [List.getD_eq_default _ _ (by simp; omega)]; rfl
  obtain ⟨a1, a2⟩ := fold_zip (d - 1 + numQuad d + 1) ((cs.map (·.draws)).map fx) (List.replicate (d - 1 + numQuad d + 1) 0#64) hlx (by simp) (by
    intro i hi
    rw [hrep, Nat.zero_add, hcx]
    cases i with
    | zero => rw [zx]; norm_num
    | succ i =>
      rw [ex i hi]
      refine hlt _ (Or.inl ?_)
      rw [List.getD_eq_getElem _ _ (by omega)]
      exact List.getElem_mem _)
  obtain ⟨b1, b2⟩ := fold_zip (d - 1 + 1) ((cs.map (·.draws)).map fy) (List.replicate (d - 1 + 1) 0#64) hly (by simp) (by
    intro i hi
    rw [hrep, Nat.zero_add, hcy, ey i hi]
    refine hlt _ (Or.inr ?_)
    rw [List.getD_eq_getElem _ _ (by omega)]
    exact List.getElem_mem _)
  unfold linSums
  rw [hpair]
  dsimp only
  constructor
  · apply toNat_list
    · rw [List.length_set, a1, lenx]
    · intro i hi
      rw [lenx] at hi
      cases i with
      | zero =>
        have h0 := a2 0 hi
        rw [hrep, hcx, zx] at h0
        have hn : cs.length < 2 ^ 64 := by
          have := hlt cs.length (Or.inl (by simp [xSums]))
          exact this
        rw [List.getD_eq_getElem _ _ (by rw [List.length_set, a1]; omega), List.getElem_set_self, BitVec.toNat_add, h0]
        simp only [List.length_map, BitVec.toNat_ofNat, Nat.zero_add, Nat.mod_mod, xSums, List.cons_append, List.getD_cons_zero]
        exact Nat.mod_eq_of_lt hn
      | succ i =>
        have h0 := a2 (i + 1) hi
        rw [hrep, hcx, ex i hi] at h0
        have hset : ∀ (w : List U64) (v : U64), (w.set 0 v).getD (i + 1) 0#64 = w.getD (i + 1) 0#64 := by
          intro w v
          simp [List.getD_eq_getElem?_getD]
        rw [hset, h0, Nat.zero_add]
  · apply toNat_list
    · rw [b1, leny]
    · intro i hi
      rw [leny] at hi
      rw [b2 i hi, hrep, hcy, ey i hi, Nat.zero_add]

theorem toNat_list_inj {x y : List U64} (h : x.map (·.toNat) = y.map (·.toNat)) : x = y :=
  List.map_injective_iff.2 (fun _ _ h => BitVec.eq_of_toNat_eq h) h

/-- C59 for LINREG of any degree the circuit code can take, up to 24 bits, at least one submission, no sum reaching `p`: the client program runs
to its end, and at any time of a session, for every schedule and iteration order, server 0 answers with what the client program prints, the
least-squares coefficients of the submitted data if these are unique. -/
theorem C59_lin (c : StoreCfg) {g0 g1 : StoreRng} (hg : GoodRng intModulus g0) {d : ℕ} (hd : 1 ≤ d) (hsm : linMul d < 2 ^ 18) {nbits : ℕ} (hb : nbits ≤ 24)
    (coef : ℕ → ℤ) {circ : Circuit} (hcirc : checkLinReg intModulus d = some circ) {t : RootTables} {l : List ℕ} (hrc : RootCalls (npow2 (linMul d) :: l) t)
    {rs : List SnipRand} (hne : rs ≠ []) (hn : rs.length < 2 ^ 32) (hr : ∀ r ∈ rs, ValidRand intModulus circ r) (mx : BitVec 32) (g : Prg)
    (ha : Function.Injective g.aes) (hc : g.pos + linBlocks d * rs.length < 2 ^ 64) :
    let data := (linClients d rs g).map (·.data nbits)
    (∀ n ∈ xSums d data ++ ySums d data, n < intModulus) →
    ∃ b0 b1 printed, linClient d nbits t rs mx g = some (b0, b1, printed) ∧
      ((normalMatrix d data).det = 0 → printed = none) ∧
      ((normalMatrix d data).det ≠ 0 → ∃ co : List ℚ, printed = some co ∧ co.length = d ∧
        ∀ b : ℕ → ℝ, rss d data (fun i => (co.getD i 0 : ℚ)) ≤ rss d data b ∧
          (rss d data b = rss d data (fun i => (co.getD i 0 : ℚ)) → ∀ i < d, b i = (co.getD i 0 : ℚ))) ∧
      ∀ {e0 e1 : Env} {s0 s1 : Srv} (_ : Ready e0 e1 s0 s1 b0 b1),
        ∃ s0' s1', Always (iteration false c g0 nbits coef e0 s0) (iteration true c g1 nbits coef e1 s1) (.lin (.ans printed), s0') (.lin .noAns, s1') ∧
          ∃ y, InStep y s0' s1' := by
  intro data hp
  obtain ⟨rows, hrows, q0, q1, hdr⟩ := linLoop_rows hd hsm (by omega : nbits ≤ 31) hcirc hrc rs g hr
  obtain ⟨c', e', hcok, hmul, hzero, hin, hevl⟩ := linCircuit hd hsm
  rw [hcirc] at e'; cases e'
  set cs := linClients d rs g with hcs
  have hlen : cs.length = rs.length := by rw [← linClients_rand d rs g, List.length_map]
  have hlen0 : (sent0 rows).length = rs.length := by have := congrArg List.length q0; simpa [hlen] using this
  have hlen1 : (sent1 rows).length = rs.length := by have := congrArg List.length q1; simpa [hlen] using this
  have hcne : cs ≠ [] := by
    intro e; rw [e] at hlen; exact hne (List.length_eq_zero_iff.1 hlen.symm)
  have hh : HonestLin d nbits circ t cs (sent0 rows) (sent1 rows) := by
    refine ⟨hcirc, ⟨l, hrc⟩, ?_, linClients_sized d rs g, ?_, by rw [q0], by rw [q1]⟩
    · rw [hcs, linClients_keys]; exact skip_distinct (by unfold linBlocks; omega) ha hc
    · intro c hc
      refine hr _ ?_
      rw [← linClients_rand d rs g]
      exact List.mem_map.2 ⟨c, hc, rfl⟩
  have hd32 : d < 2 ^ 32 := by
    have : d - 1 ≤ linMul d := by unfold linMul; omega
    omega
  have hspec := fun cl hc => clientLin_spec hd hsm (by omega : nbits ≤ 31) hcirc hrc (hh.sized cl hc) (hh.draws cl hc)
  have hstream : ∀ (sub : List (Bytes × LinRow)) (F : LinRow × LinRow → LinRow), (F = (·.1) ∨ F = (·.2)) →
      sub.map some = cs.map (fun cl => (clientLin d nbits cl.draws t cl.rand).map fun o => (cl.pk, F o)) →
      ∀ e ∈ sub, e.1.length = pkLength ∧ LinRowOk circ d e.2 ∧ ∀ y ∈ e.2.packet.all, Fits y := by
    intro sub F hF hs e he
    have : some e ∈ sub.map some := List.mem_map.2 ⟨e, he, rfl⟩
    rw [hs] at this
    obtain ⟨cl, hc, h⟩ := List.mem_map.1 this
    obtain ⟨r0, r1, w, ho, -, -, ⟨a3, a4, a5⟩, ⟨a6, a7, a8⟩, -, -, hpk⟩ := hspec cl hc
    rw [ho, Option.map_some, Option.some.injEq] at h
    obtain ⟨a, b⟩ := share_sizes (hh.draws cl hc) hpk
    rw [← h]
    rcases hF with rfl | rfl
    · exact ⟨(hh.sized cl hc).key, ⟨a3, a4, a5, a.1⟩, a.2⟩
    · exact ⟨(hh.sized cl hc).key, ⟨a6, a7, a8, b.1⟩, b.2⟩
  obtain ⟨bs0, eb0, rd0⟩ := lin_stream hd32 hmul (hstream _ (·.1) (Or.inl rfl) q0)
  obtain ⟨bs1, eb1, rd1⟩ := lin_stream hd32 hmul (hstream _ (·.2) (Or.inr rfl) q1)
  -- what is printed
  obtain ⟨sx, sy⟩ := linSums_eq hd (by omega : nbits ≤ 31) (linClients_sized d rs g) fun n hn => lt_trans (hp n hn) (by decide)
  rw [← hcs, ← hdr] at sx sy
  have hrowsd : ∀ q ∈ data, q.1.length = d - 1 := by
    intro q hq
    obtain ⟨cl, hc, rfl⟩ := List.mem_map.1 hq
    simp [LinClient.data, (linClients_sized d rs g cl hc).x]
  have hsol : ∃ q, solveLinReg d (linSums d nbits (rows.map (·.real))).1 (linSums d nbits (rows.map (·.real))).2 = some q ∧
      ((normalMatrix d data).det = 0 → q = none) ∧
      ((normalMatrix d data).det ≠ 0 → ∃ co : List ℚ, q = some co ∧ co.length = d ∧
        ∀ b : ℕ → ℝ, rss d data (fun i => (co.getD i 0 : ℚ)) ≤ rss d data b ∧
          (rss d data b = rss d data (fun i => (co.getD i 0 : ℚ)) → ∀ i < d, b i = (co.getD i 0 : ℚ))) := by
    by_cases hdet : (normalMatrix d data).det = 0
    · exact ⟨none, (C43_singular hd hrowsd sx sy hdet).1, fun _ => rfl, fun h => absurd hdet h⟩
    · obtain ⟨co, h1, h2, -, h4⟩ := C43_least_squares hd hrowsd sx sy hdet
      exact ⟨some co, h1, fun h => absurd h hdet, fun _ => ⟨co, rfl, h2, h4⟩⟩
  obtain ⟨q, hq, z1, z2⟩ := hsol
  refine ⟨_, _, q, by rw [linClient, hrows, Option.bind_some, eb0, Option.bind_some, eb1, Option.bind_some, hq, Option.map_some], z1, z2, ?_⟩
  intro e0 e1 s0 s1 h
  obtain ⟨y, hy⟩ := h.step
  have v0 : LinStream d rs.length bs0 (sent0 rows) := by have := rd0 []; rwa [List.append_nil, hlen0] at this
  have v1 : LinStream d rs.length bs1 (sent1 rows) := by have := rd1 []; rwa [List.append_nil, hlen1] at this
  have hfit : ∃ e ∈ sent1 rows, linFits nbits e.2 = true := by
    obtain ⟨cl, hc⟩ := List.exists_mem_of_ne_nil _ hcne
    obtain ⟨r0, r1, w, ho, -, f1, -⟩ := hspec cl hc
    have : some (cl.pk, r1) ∈ (sent1 rows).map some := by
      rw [q1]; exact List.mem_map.2 ⟨cl, hc, by rw [ho]; rfl⟩
    obtain ⟨e, he, h⟩ := List.mem_map.1 this
    cases h
    exact ⟨_, he, f1⟩
  obtain ⟨a, s0', s1', hP, hA, hI⟩ := iteration_pair c (g1 := g1) hg (nbits := nbits) coef (b := .lin d (sent0 rows) (sent1 rows)) (e0 := e0) (e1 := e1)
    ⟨bs0, bs1, by rw [h.stream0, hlen0]; exact opens_init _ hn _ _, by rw [hlen0]; exact v0, by rw [h.stream1, hlen1]; exact opens_init _ hn _ _,
      by rw [hlen1]; exact v1⟩ ⟨hb, hd, hsm, hfit⟩ h.ord h.draw hy
  refine ⟨s0', s1', ?_, _, hI⟩
  -- the answer of the operation, computed twice
  have hcan := refresh_canon hy.sn0.canon h.draw
  have f0 := snip_fresh hcan 0 (y.refresh e1.draw).pos
  obtain ⟨bs0', bs1', eb0', eb1', hop⟩ := C42_honest hd hsm hb hcne (by rw [hlen]; exact hn) hh hp
  rw [eb0] at eb0'; cases eb0'
  rw [eb1] at eb1'; cases eb1'
  obtain ⟨r, u0, u1, hA1, hz1, hz2⟩ := hop [] [] f0 f0 coef (fun _ _ _ => 0#64) (fun _ _ _ => 0#64) (fun _ _ => 0#64) e1.ord (h.ord _)
  obtain ⟨w0, w1, xa, ya, r', hA2, hr', hxa, hya, -⟩ := C42_linreg_op hd hsm hb (by omega) hn v0 v1 hfit f0 f0 coef (fun _ _ _ => 0#64) (fun _ _ _ => 0#64)
    (fun _ _ => 0#64) e1.ord (h.ord _) hcirc
  rw [List.append_nil, List.append_nil, hlen] at hA1
  have key := congrArg Prod.fst (hA1.unique hA2).1
  dsimp only at key
  obtain ⟨c2, hc2, xa', ya', q', hq', hxa', hya', hA⟩ := hA
  rw [hcirc] at hc2; cases hc2
  have ex : xa' = xa := toNat_list_inj (hxa'.trans hxa.symm)
  have ey : ya' = ya := toNat_list_inj (hya'.trans hya.symm)
  rw [ex, ey, hr'] at hq'
  cases hq'
  rw [hlen0, ← key] at hA
  -- both solve the same equations
  have hrq : r = q := by
    by_cases hdet : (normalMatrix d data).det = 0
    · rw [hz1 hdet, z1 hdet]
    · obtain ⟨co, rfl, l1, m1⟩ := hz2 hdet
      obtain ⟨co', rfl, l2, m2⟩ := z2 hdet
      congr 1
      have heq := le_antisymm (m1 fun i => (co'.getD i 0 : ℚ)).1 (m2 fun i => (co.getD i 0 : ℚ)).1
      have := (m2 fun i => (co.getD i 0 : ℚ)).2 heq
      apply List.ext_getElem (by omega)
      intro i h1 h2
      have hi := this i (by omega)
      rw [List.getD_eq_getElem _ _ h1, List.getD_eq_getElem _ _ h2] at hi
      exact_mod_cast hi
  rw [hrq] at hA
  rw [hA] at hP
  exact hP.always

/-- Three submissions of degree 2 whose normal equations have a unique solution. -/
example : ∃ (circ : Circuit) (t : RootTables) (l : List ℕ) (r : SnipRand), checkLinReg intModulus 2 = some circ ∧ RootCalls (npow2 (linMul 2) :: l) t ∧
    ValidRand intModulus circ r ∧ Function.Injective plainPrg.aes ∧ plainPrg.pos + linBlocks 2 * 3 < 2 ^ 64 ∧
    (linClients 2 [r, r, r] plainPrg).map (·.data 4) = [([0], 4), ([14], 2), ([12], 0)] := by
  obtain ⟨c, hc, hcok, hmul, -⟩ := linCircuit (d := 2) (by norm_num) (by decide)
  have hm2 : linMul 2 = 2 := by decide
  obtain ⟨t, ht⟩ := C30_sizes (c := c) hcok.small [] _ .start
  rw [hmul] at ht
  refine ⟨c, t, [], ⟨1, 2, [3, 4, 5, 6], 5, 6, 7, [8, 9], 9, 10, 11, 12, 13⟩, hc, ht, ?_, plainPrg_injective, by decide, by decide +kernel⟩
  refine ⟨by rw [hmul, hm2]; rfl, by rw [hmul, hm2]; rfl, ?_, ?_, ?_, ?_⟩ <;> simp only [IsDraw] <;> decide

end Verif

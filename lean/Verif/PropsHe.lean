import Verif.ModelHe
import Verif.PropsProc
import Verif.PropsNet
import Verif.PropsMain

/-!
# C58, C62: triples from homomorphic encryption
-/

namespace Verif

/-! ## Batches -/

theorem heBatchLen_le (n i : ℕ) : heBatchLen n i ≤ maxHeBatch := by
  unfold heBatchLen maxHeBatch; split_ifs <;> omega

/-- Before the last batch all batches are full. -/
theorem sum_full (n i : ℕ) (hi : i < heBatches n) : ((List.range i).map (heBatchLen n)).sum = maxHeBatch * i := by
  induction i with
  | zero => rfl
  | succ i ih =>
    rw [List.range_succ, List.map_append, List.sum_append, ih (by omega)]
    simp only [List.map_cons, List.map_nil, List.sum_cons, List.sum_nil, heBatchLen]
    rw [if_neg (by omega)]
    ring

/-- All batches together have `n` entries. -/
theorem sum_all (n : ℕ) (hn : 0 < n) : ((List.range (heBatches n)).map (heBatchLen n)).sum = n := by
  have h := sum_full n (heBatches n - 1) (by unfold heBatches maxHeBatch; omega)
  have e : heBatches n = (heBatches n - 1) + 1 := by unfold heBatches maxHeBatch; omega
  rw [e, List.range_succ, List.map_append, List.sum_append, h]
  simp only [List.map_cons, List.map_nil, List.sum_cons, List.sum_nil, heBatchLen, if_true]
  unfold heBatches maxHeBatch
  omega

/-- Concatenating mapped ranges of consecutive blocks. -/
theorem flatten_blocks {α : Type} (L : ℕ → ℕ) (f : ℕ → α) (m : ℕ) :
    ((List.range m).map fun i => (List.range (L i)).map fun j => f (((List.range i).map L).sum + j)).flatten =
      (List.range ((List.range m).map L).sum).map f := by
  induction m with
  | zero => rfl
  | succ m ih =>
    rw [List.range_succ, List.map_append, List.flatten_append, ih, List.map_append, List.sum_append]
    simp only [List.map_cons, List.map_nil, List.flatten_cons, List.flatten_nil, List.append_nil, List.sum_cons, List.sum_nil, add_zero]
    rw [List.range_add, List.map_append, List.map_map]
    rfl

/-! ## The exchange -/

theorem reads_serial {T : Type} {ser : T → Bytes} {de : Bytes → Option T} (h : ∀ t, de (ser t) = some t)
    (hl : ∀ t, 0 < (ser t).length ∧ (ser t).length < 2 ^ 32) (t : T) : Reads (rdSerial de) (encString (ser t)).2 t := by
  have := (C15_string_roundtrip (ser t) [] (hl t).1 (hl t).2).2.2
  unfold rdSerial
  rw [← List.append_nil (encString (ser t)).2]
  refine this.bind ?_
  dsimp only
  rw [h t]
  exact Reads.ret _

theorem heSwap_pair {T : Type} {ser : T → Bytes} {de : Bytes → Option T} (h : ∀ t, de (ser t) = some t)
    (hl : ∀ t, 0 < (ser t).length ∧ (ser t).length < 2 ^ 32) {m0 m1 : List T} (hm : m0.length = m1.length) :
    Pair (heSwap ser de m0) (heSwap ser de m1) m1 m0 := by
  unfold heSwap
  refine Pair.exch ?_ ?_
  · rw [hm]; exact reads_rep (reads_serial h hl) m1
  · rw [← hm]; exact reads_rep (reads_serial h hl) m0

/-! ## C58 -/

/-- Specification: `n` triples on each server that multiply position by position. -/
def Multiply (n : ℕ) (t0 t1 : List Triple) : Prop :=
  t0.length = n ∧ t1.length = n ∧ ∀ (j : ℕ) (x y : Triple), t0[j]? = some x → t1[j]? = some y →
    (((x.A + y.A) * (x.B + y.B) : ℤ) : ZMod intModulus) = ((x.C + y.C : ℤ) : ZMod intModulus) ∧ Canon x.C intModulus ∧ Canon y.C intModulus

/-- Slot `j` of batch `i` is the draw number `8192 i + j`. -/
theorem heDraws_full (rnd : ℕ → ℤ) (pos n i : ℕ) : heDraws rnd pos n i =
    (List.range (heBatchLen n i)).map fun j => (⟨rnd (pos + 3 * (((List.range i).map (heBatchLen n)).sum + j)),
      rnd (pos + 3 * (((List.range i).map (heBatchLen n)).sum + j) + 1), rnd (pos + 3 * (((List.range i).map (heBatchLen n)).sum + j) + 2)⟩ : HeDraw) := by
  unfold heDraws
  refine List.map_congr_left fun j _ => ?_
  have : ∀ s, pos + 3 * s + 3 * j = pos + 3 * (s + j) := fun s => by ring
  simp only [this]

/-- What one server returns, given the slots decrypted for draw number `j`. -/
def heList (rnd : ℕ → ℤ) (pos n : ℕ) (e : ℕ → ℤ) : List Triple :=
  (List.range n).map fun j => heTriple ⟨rnd (pos + 3 * j), rnd (pos + 3 * j + 1), rnd (pos + 3 * j + 2)⟩ (e j)

theorem slot_draw (f : HeDraw → ℤ) (rnd : ℕ → ℤ) (pos n i j : ℕ) (hj : j < heBatchLen n i) :
    slotVal intModulus ((heDraws rnd pos n i).map f) j = ((f ⟨rnd (pos + 3 * (((List.range i).map (heBatchLen n)).sum + j)),
      rnd (pos + 3 * (((List.range i).map (heBatchLen n)).sum + j) + 1), rnd (pos + 3 * (((List.range i).map (heBatchLen n)).sum + j) + 2)⟩ : ℤ) :
      ZMod intModulus) := by
  rw [heDraws_full]
  simp [slotVal, List.getD_eq_getElem?_getD, hj]

theorem draws_length (rnd : ℕ → ℤ) (pos n i : ℕ) : (heDraws rnd pos n i).length = heBatchLen n i := by simp [heDraws]

/-- Blocks to positions. -/
theorem block_of (n : ℕ) (hn : 0 < n) (j : ℕ) (hj : j < n) : j / maxHeBatch < heBatches n ∧ j % maxHeBatch < heBatchLen n (j / maxHeBatch) ∧
    ((List.range (j / maxHeBatch)).map (heBatchLen n)).sum + j % maxHeBatch = j := by
  have h1 : j / maxHeBatch < heBatches n := by unfold heBatches maxHeBatch; omega
  refine ⟨h1, ?_, ?_⟩
  · unfold heBatchLen heBatches maxHeBatch at *
    split_ifs with h <;> omega
  · rw [sum_full n _ h1, Nat.div_add_mod]

/-- Both sides of one call. The decrypted slots are `a b' - d'` of the same position. -/
theorem heTriples_pair (he : PackedHe intModulus) {k0 k1 : he.Pk} {s0 s1 : he.Sk} (h0 : he.KeyPair k0 s0) (h1 : he.KeyPair k1 s1)
    (rnd0 rnd1 : ℕ → ℤ) (rs0 rs1 : ℕ → he.R × he.R) (pos0 pos1 n : ℕ) (hn : heBatches n < 2 ^ 32) :
    ∃ e0 e1 : ℕ → ℤ, Pair (heTriples he k0 k1 s0 rnd0 rs0 pos0 n) (heTriples he k1 k0 s1 rnd1 rs1 pos1 n)
        (heList rnd0 pos0 n e0, pos0 + 3 * n) (heList rnd1 pos1 n e1, pos1 + 3 * n) ∧
      ∀ j < n, ((e0 j : ℤ) : ZMod intModulus) = (rnd0 (pos0 + 3 * j) : ZMod intModulus) * rnd1 (pos1 + 3 * j + 1) - rnd1 (pos1 + 3 * j + 2) ∧
        ((e1 j : ℤ) : ZMod intModulus) = (rnd1 (pos1 + 3 * j) : ZMod intModulus) * rnd0 (pos0 + 3 * j + 1) - rnd0 (pos0 + 3 * j + 2) := by
  by_cases hz : n = 0
  · subst hz
    refine ⟨0, 0, ?_, fun j hj => absurd hj (by omega)⟩
    simp only [heTriples, if_true]
    exact Pair.ret _ _
  have hpos : 0 < n := Nat.pos_of_ne_zero hz
  -- the ciphertext a server sends in the second exchange
  let E (ka kd : he.Pk) (ra rd : ℕ → he.R × he.R) (rndA rndB : ℕ → ℤ) (pa pb i : ℕ) : he.Ct :=
    he.sub (he.mulPlain (he.enc ka (ra i).1 ((heDraws rndA pa n i).map (·.a))) ((heDraws rndB pb n i).map (·.b)))
      (he.enc kd (rd i).2 ((heDraws rndB pb n i).map (·.d)))
  have hlen : ∀ (f : HeDraw → ℤ) rnd pos i, ((heDraws rnd pos n i).map f).length ≤ he.slots := fun f rnd pos i => by
    rw [List.length_map, draws_length]
    exact (heBatchLen_le n i).trans he.slots_big
  have hE : ∀ {k s}, he.KeyPair k s → ∀ ra rd rndA rndB pa pb i, ∀ j < heBatchLen n i,
      ((he.get s (E k k ra rd rndA rndB pa pb i) j : ℤ) : ZMod intModulus) =
        (rndA (pa + 3 * (((List.range i).map (heBatchLen n)).sum + j)) : ZMod intModulus) *
          rndB (pb + 3 * (((List.range i).map (heBatchLen n)).sum + j) + 1) - rndB (pb + 3 * (((List.range i).map (heBatchLen n)).sum + j) + 2) := by
    intro k s hk ra rd rndA rndB pa pb i j hj
    have := he.get_is k s _ _ hk (he.sub_is k _ _ _ _ (he.mul_is k _ _ _ (he.enc_is k (ra i).1 _ (hlen (·.a) rndA pa i)) (hlen (·.b) rndB pb i))
      (he.enc_is k (rd i).2 _ (hlen (·.d) rndB pb i))) j (lt_of_lt_of_le hj ((heBatchLen_le n i).trans he.slots_big))
    rw [slot_draw _ _ _ _ _ _ hj, slot_draw _ _ _ _ _ _ hj, slot_draw _ _ _ _ _ _ hj] at this
    exact this
  let e0 : ℕ → ℤ := fun j => he.get s0 (E k0 k0 rs0 rs1 rnd0 rnd1 pos0 pos1 (j / maxHeBatch)) (j % maxHeBatch)
  let e1 : ℕ → ℤ := fun j => he.get s1 (E k1 k1 rs1 rs0 rnd1 rnd0 pos1 pos0 (j / maxHeBatch)) (j % maxHeBatch)
  refine ⟨e0, e1, ?_, ?_⟩
  · unfold heTriples
    rw [if_neg hz, if_neg (by omega), if_neg hz, if_neg (by omega)]
    dsimp only
    refine (heSwap_pair he.deCt_ser he.serCt_len (by simp)).bind ?_
    refine (heSwap_pair he.deCt_ser he.serCt_len (by simp)).bind ?_
    have hfin : ∀ (k : he.Pk) (s : he.Sk) ra rd rndA rndB pa pb,
        (List.zipWith (fun i c => (heDraws rndA pa n i).mapIdx fun j x => heTriple x (he.get s c j)) (List.range (heBatches n))
          (List.zipWith (fun ca e => he.sub (he.mulPlain ca ((heDraws rndB pb n e.1).map (·.b))) e.2)
            ((List.range (heBatches n)).map fun i => he.enc k (ra i).1 ((heDraws rndA pa n i).map (·.a)))
            ((List.range (heBatches n)).zip ((List.range (heBatches n)).map fun i => he.enc k (rd i).2 ((heDraws rndB pb n i).map (·.d)))))).flatten =
        heList rndA pa n fun j => he.get s (E k k ra rd rndA rndB pa pb (j / maxHeBatch)) (j % maxHeBatch) := by
      intro k s ra rd rndA rndB pa pb
      have z : List.zipWith (fun i c => (heDraws rndA pa n i).mapIdx fun j x => heTriple x (he.get s c j)) (List.range (heBatches n))
          (List.zipWith (fun ca e => he.sub (he.mulPlain ca ((heDraws rndB pb n e.1).map (·.b))) e.2)
            ((List.range (heBatches n)).map fun i => he.enc k (ra i).1 ((heDraws rndA pa n i).map (·.a)))
            ((List.range (heBatches n)).zip ((List.range (heBatches n)).map fun i => he.enc k (rd i).2 ((heDraws rndB pb n i).map (·.d))))) =
          (List.range (heBatches n)).map fun i => (List.range (heBatchLen n i)).map fun j =>
            (fun q => heTriple ⟨rndA (pa + 3 * q), rndA (pa + 3 * q + 1), rndA (pa + 3 * q + 2)⟩
              (he.get s (E k k ra rd rndA rndB pa pb (q / maxHeBatch)) (q % maxHeBatch))) (((List.range i).map (heBatchLen n)).sum + j) := by
        apply List.ext_getElem
        · simp
        · intro i hi hi'
          have hib : i < heBatches n := by simpa using hi'
          simp only [List.getElem_zipWith, List.getElem_map, List.getElem_range, List.getElem_zip]
          apply List.ext_getElem
          · simp [draws_length]
          · intro j hj hj'
            have hjb : j < heBatchLen n i := by simpa using hj'
            have hjm : j < maxHeBatch := lt_of_lt_of_le hjb (heBatchLen_le n i)
            have q1 : (maxHeBatch * i + j) / maxHeBatch = i := by unfold maxHeBatch at *; omega
            have q2 : (maxHeBatch * i + j) % maxHeBatch = j := by unfold maxHeBatch at *; omega
            simp only [List.getElem_mapIdx, List.getElem_map, List.getElem_range, heDraws_full, sum_full n i hib, q1, q2, E]
      rw [z, flatten_blocks (heBatchLen n) (fun q => heTriple ⟨rndA (pa + 3 * q), rndA (pa + 3 * q + 1), rndA (pa + 3 * q + 2)⟩
              (he.get s (E k k ra rd rndA rndB pa pb (q / maxHeBatch)) (q % maxHeBatch))) (heBatches n), sum_all n hpos]
      rfl
    rw [hfin k0 s0 rs0 rs1 rnd0 rnd1 pos0 pos1, hfin k1 s1 rs1 rs0 rnd1 rnd0 pos1 pos0]
    exact Pair.ret _ _
  · intro j hj
    obtain ⟨-, b2, b3⟩ := block_of n hpos j hj
    have := hE h0 rs0 rs1 rnd0 rnd1 pos0 pos1 (j / maxHeBatch) _ b2
    have := hE h1 rs1 rs0 rnd1 rnd0 pos1 pos0 (j / maxHeBatch) _ b2
    simp only [b3] at *
    exact ⟨by assumption, by assumption⟩

theorem heList_multiply {rnd0 rnd1 : ℕ → ℤ} {pos0 pos1 n : ℕ} {e0 e1 : ℕ → ℤ}
    (h : ∀ j < n, ((e0 j : ℤ) : ZMod intModulus) = (rnd0 (pos0 + 3 * j) : ZMod intModulus) * rnd1 (pos1 + 3 * j + 1) - rnd1 (pos1 + 3 * j + 2) ∧
        ((e1 j : ℤ) : ZMod intModulus) = (rnd1 (pos1 + 3 * j) : ZMod intModulus) * rnd0 (pos0 + 3 * j + 1) - rnd0 (pos0 + 3 * j + 2)) :
    Multiply n (heList rnd0 pos0 n e0) (heList rnd1 pos1 n e1) := by
  refine ⟨by simp [heList], by simp [heList], ?_⟩
  intro j x y hx hy
  obtain ⟨hj, rfl⟩ := List.getElem?_eq_some_iff.1 hx
  obtain ⟨-, rfl⟩ := List.getElem?_eq_some_iff.1 hy
  obtain ⟨h0, h1⟩ := h j (by simpa [heList] using hj)
  simp only [heList, List.getElem_map, List.getElem_range, heTriple]
  refine ⟨?_, fmod_canon _, fmod_canon _⟩
  simp only [Int.cast_add, Int.cast_mul, fmod_cast, h0, h1]
  ring

/-- C58. For every ideal packed encryption, all key pairs, all draws of both servers, all randomness of the encryptions and every `n` (up to the range
of the loop counter): every schedule of the two servers ends, each returns exactly `n` triples, and they multiply position by position. -/
theorem C58_triples (he : PackedHe intModulus) {k0 k1 : he.Pk} {s0 s1 : he.Sk} (h0 : he.KeyPair k0 s0) (h1 : he.KeyPair k1 s1)
    (rnd0 rnd1 : ℕ → ℤ) (rs0 rs1 : ℕ → he.R × he.R) (pos0 pos1 n : ℕ) (hn : n ≤ 8192 * (2 ^ 32 - 1)) :
    ∃ t0 t1, Always (heTriples he k0 k1 s0 rnd0 rs0 pos0 n) (heTriples he k1 k0 s1 rnd1 rs1 pos1 n) (t0, pos0 + 3 * n) (t1, pos1 + 3 * n) ∧
      Multiply n t0 t1 := by
  obtain ⟨e0, e1, hp, he'⟩ := heTriples_pair he h0 h1 rnd0 rnd1 rs0 rs1 pos0 pos1 n (by unfold heBatches maxHeBatch; omega)
  exact ⟨_, _, hp.always, heList_multiply he'⟩

theorem go_pair (he : PackedHe intModulus) {k0 k1 : he.Pk} {s0 s1 : he.Sk} (h0 : he.KeyPair k0 s0) (h1 : he.KeyPair k1 s1)
    (rnd0 rnd1 : ℕ → ℤ) (rs0 rs1 : ℕ → ℕ → he.R × he.R) (ns : List ℕ) (hn : ∀ n ∈ ns, n ≤ 8192 * (2 ^ 32 - 1)) (c pos0 pos1 : ℕ) :
    ∃ T0 T1, Pair (heRun.go he k0 s0 rnd0 rs0 k1 c pos0 ns) (heRun.go he k1 s1 rnd1 rs1 k0 c pos1 ns) T0 T1 ∧ T0.length = ns.length ∧
      T1.length = ns.length ∧ ∀ (i n : ℕ) (t0 t1 : List Triple), ns[i]? = some n → T0[i]? = some t0 → T1[i]? = some t1 → Multiply n t0 t1 ∧
        ∃ e0 e1 : ℕ → ℤ, t0 = heList rnd0 (pos0 + 3 * (ns.take i).sum) n e0 ∧ t1 = heList rnd1 (pos1 + 3 * (ns.take i).sum) n e1 := by
  induction ns generalizing c pos0 pos1 with
  | nil => exact ⟨[], [], Pair.ret _ _, rfl, rfl, fun i n t0 t1 h => by simp at h⟩
  | cons n ns ih =>
    obtain ⟨e0, e1, hp, he'⟩ := heTriples_pair he h0 h1 rnd0 rnd1 (rs0 c) (rs1 c) pos0 pos1 n
      (by have := hn n (by simp); unfold heBatches maxHeBatch; omega)
    obtain ⟨T0, T1, hP, hl0, hl1, hT⟩ := ih (fun m hm => hn m (by simp [hm])) (c + 1) (pos0 + 3 * n) (pos1 + 3 * n)
    refine ⟨_, _, hp.bind (hP.bind (Pair.ret _ _)), by simp [hl0], by simp [hl1], ?_⟩
    intro i m t0 t1 hi ht0 ht1
    cases i with
    | zero =>
      simp only [List.getElem?_cons_zero, Option.some.injEq] at hi ht0 ht1
      subst hi; subst ht0; subst ht1
      exact ⟨heList_multiply he', e0, e1, by simp, by simp⟩
    | succ i =>
      simp only [List.getElem?_cons_succ] at hi ht0 ht1
      obtain ⟨a, e0', e1', b, d⟩ := hT i m t0 t1 hi ht0 ht1
      refine ⟨a, e0', e1', ?_, ?_⟩
      · rw [b, List.take_succ_cons, List.sum_cons]; congr 1; ring
      · rw [d, List.take_succ_cons, List.sum_cons]; congr 1; ring

theorem run_pair (he : PackedHe intModulus) {k0 k1 : he.Pk} {s0 s1 : he.Sk} (h0 : he.KeyPair k0 s0) (h1 : he.KeyPair k1 s1)
    (off : ℕ) (rnd0 rnd1 : ℕ → ℤ) (rs0 rs1 : ℕ → ℕ → he.R × he.R) (ns : List ℕ) (hn : ∀ n ∈ ns, n ≤ 8192 * (2 ^ 32 - 1)) :
    ∃ T0 T1, Pair (heRun he false off k0 s0 rnd0 rs0 ns) (heRun he true off k1 s1 rnd1 rs1 ns) T0 T1 ∧ T0.length = ns.length ∧
      T1.length = ns.length ∧ ∀ (i n : ℕ) (t0 t1 : List Triple), ns[i]? = some n → T0[i]? = some t0 → T1[i]? = some t1 → Multiply n t0 t1 ∧
        ∃ e0 e1 : ℕ → ℤ, t0 = heList rnd0 (0 + 3 * (ns.take i).sum) n e0 ∧ t1 = heList rnd1 (off + 3 * (ns.take i).sum) n e1 := by
  obtain ⟨T0, T1, hP, h⟩ := go_pair he h0 h1 rnd0 rnd1 rs0 rs1 ns hn 0 0 off
  exact ⟨T0, T1, (heSwap_pair he.dePk_ser he.serPk_len (m0 := [k0]) (m1 := [k1]) rfl).bind hP, h⟩

/-- C58 for a whole session: set-up with the exchange of the public keys, then any sequence of calls. -/
theorem C58_session (he : PackedHe intModulus) {k0 k1 : he.Pk} {s0 s1 : he.Sk} (h0 : he.KeyPair k0 s0) (h1 : he.KeyPair k1 s1)
    (off : ℕ) (rnd0 rnd1 : ℕ → ℤ) (rs0 rs1 : ℕ → ℕ → he.R × he.R) (ns : List ℕ) (hn : ∀ n ∈ ns, n ≤ 8192 * (2 ^ 32 - 1)) :
    ∃ T0 T1, Always (heRun he false off k0 s0 rnd0 rs0 ns) (heRun he true off k1 s1 rnd1 rs1 ns) T0 T1 ∧ T0.length = ns.length ∧
      T1.length = ns.length ∧ ∀ (i n : ℕ) (t0 t1 : List Triple), ns[i]? = some n → T0[i]? = some t0 → T1[i]? = some t1 → Multiply n t0 t1 := by
  obtain ⟨T0, T1, hP, a, b, h⟩ := run_pair he h0 h1 off rnd0 rnd1 rs0 rs1 ns hn
  exact ⟨T0, T1, hP.always, a, b, fun i n t0 t1 x y z => (h i n t0 t1 x y z).1⟩

/-! ## C62 -/

/-- The draw number `j` of a server that has used `pos` values before: its share of the factors and its mask. -/
def drawAt (rnd : ℕ → ℤ) (pos j : ℕ) : HeDraw := ⟨rnd (pos + 3 * j), rnd (pos + 3 * j + 1), rnd (pos + 3 * j + 2)⟩

/-- C62, the desired property fails. Both servers draw from a `default_random_engine` in its default state, server 1 with an offset of 8 (the value used
by the callers): whatever the engine, server 1's factors for triple `j` are values that server 0 draws itself, its mask for triple `j + 2` and its factor
`A` of triple `j + 3`. With `3 n` more calls server 0 knows both factors of every triple, and so their product. -/
theorem C62_false_shared_engine (he : PackedHe intModulus) {k0 k1 : he.Pk} {s0 s1 : he.Sk} (h0 : he.KeyPair k0 s0) (h1 : he.KeyPair k1 s1)
    (rnd : ℕ → ℤ) (rs0 rs1 : ℕ → ℕ → he.R × he.R) (n : ℕ) (hn : n ≤ 8192 * (2 ^ 32 - 1)) :
    ∃ t0 t1, Always (heRun he false 8 k0 s0 rnd rs0 [n]) (heRun he true 8 k1 s1 rnd rs1 [n]) [t0] [t1] ∧ Multiply n t0 t1 ∧
      (∀ (j : ℕ) (x : Triple), t0[j]? = some x → x.A = (drawAt rnd 0 j).a ∧ x.B = (drawAt rnd 0 j).b) ∧
      (∀ (j : ℕ) (y : Triple), t1[j]? = some y → y.A = (drawAt rnd 0 (j + 2)).d ∧ y.B = (drawAt rnd 0 (j + 3)).a) ∧
      ∀ (j : ℕ) (x y : Triple), t0[j + 3]? = some x → t1[j]? = some y → x.A = y.B := by
  obtain ⟨T0, T1, hP, a, b, h⟩ := run_pair he h0 h1 8 rnd rnd rs0 rs1 [n] (by simpa using hn)
  obtain ⟨t0, rfl⟩ := List.length_eq_one_iff.1 a
  obtain ⟨t1, rfl⟩ := List.length_eq_one_iff.1 b
  obtain ⟨hm, e0, e1, c, d⟩ := h 0 n t0 t1 rfl rfl rfl
  have f0 : ∀ (j : ℕ) (x : Triple), t0[j]? = some x → x.A = (drawAt rnd 0 j).a ∧ x.B = (drawAt rnd 0 j).b := by
    intro j x hx
    rw [c] at hx
    obtain ⟨_, rfl⟩ := List.getElem?_eq_some_iff.1 hx
    simp [heList, heTriple, drawAt]
  have f1 : ∀ (j : ℕ) (y : Triple), t1[j]? = some y → y.A = (drawAt rnd 0 (j + 2)).d ∧ y.B = (drawAt rnd 0 (j + 3)).a := by
    intro j x hx
    rw [d] at hx
    obtain ⟨_, rfl⟩ := List.getElem?_eq_some_iff.1 hx
    have q1 : 8 + 3 * j = 0 + 3 * (j + 2) + 2 := by ring
    have q2 : 8 + 3 * j + 1 = 0 + 3 * (j + 3) := by ring
    simp only [heList, heTriple, drawAt, List.take_zero, List.sum_nil, mul_zero, add_zero, List.getElem_map, List.getElem_range]
    exact ⟨congrArg rnd q1, congrArg rnd q2⟩
  exact ⟨t0, t1, hP.always, hm, f0, f1, fun j x y hx hy => ((f0 _ x hx).1).trans ((f1 j y hy).2).symm⟩

/-- A sequence of values of `random_int` that gives these draws after `pos` values. -/
def seqOf (x : ℕ → HeDraw) (pos k : ℕ) : ℤ :=
  if (k - pos) % 3 = 0 then (x ((k - pos) / 3)).a else if (k - pos) % 3 = 1 then (x ((k - pos) / 3)).b else (x ((k - pos) / 3)).d

theorem seqOf_spec (x : ℕ → HeDraw) (pos j : ℕ) : seqOf x pos (pos + 3 * j) = (x j).a ∧ seqOf x pos (pos + 3 * j + 1) = (x j).b ∧
    seqOf x pos (pos + 3 * j + 2) = (x j).d := by
  have e0 : pos + 3 * j - pos = 3 * j := by omega
  have e1 : pos + 3 * j + 1 - pos = 3 * j + 1 := by omega
  have e2 : pos + 3 * j + 2 - pos = 3 * j + 2 := by omega
  have d0 : 3 * j / 3 = j := by omega
  have d1 : (3 * j + 1) / 3 = j := by omega
  have d2 : (3 * j + 2) / 3 = j := by omega
  have m0 : 3 * j % 3 = 0 := by omega
  have m1 : (3 * j + 1) % 3 = 1 := by omega
  have m2 : (3 * j + 2) % 3 = 2 := by omega
  simp only [seqOf, e0, e1, e2, d0, d1, d2, m0, m1, m2, if_true]
  exact ⟨trivial, rfl, rfl⟩

/-- C62, the part that holds (full statement: a server learns nothing about the other's factors; missing: draws the other server does not know). If
server 1's masks are free, server 0's triples say nothing about server 1's factors: for all draws of server 0, all factors of server 1 and all values `c`
there are masks with which server 0's product shares are exactly `c`. -/
theorem C62_mask_partial (he : PackedHe intModulus) {k0 k1 : he.Pk} {s0 s1 : he.Sk} (h0 : he.KeyPair k0 s0) (h1 : he.KeyPair k1 s1)
    (rnd0 : ℕ → ℤ) (rs0 rs1 : ℕ → he.R × he.R) (pos0 pos1 n : ℕ) (hn : n ≤ 8192 * (2 ^ 32 - 1)) (a' b' c : ℕ → ℤ) (hc : ∀ j, Canon (c j) intModulus) :
    ∃ d' : ℕ → ℤ, (∀ j, IsDraw (d' j) intModulus) ∧ ∃ t0 t1,
      Always (heTriples he k0 k1 s0 rnd0 rs0 pos0 n) (heTriples he k1 k0 s1 (seqOf (fun j => ⟨a' j, b' j, d' j⟩) pos1) rs1 pos1 n)
        (t0, pos0 + 3 * n) (t1, pos1 + 3 * n) ∧
      t0 = (List.range n).map (fun j => ⟨rnd0 (pos0 + 3 * j), rnd0 (pos0 + 3 * j + 1), c j⟩) ∧
      t1.map (fun t => (t.A, t.B)) = (List.range n).map fun j => (a' j, b' j) := by
  have hne : NeZero intModulus := ⟨by decide⟩
  let m : ℕ → ZMod intModulus := fun j => (rnd0 (pos0 + 3 * j) : ZMod intModulus) * b' j -
    (c j - (rnd0 (pos0 + 3 * j) : ZMod intModulus) * rnd0 (pos0 + 3 * j + 1) - rnd0 (pos0 + 3 * j + 2))
  let d' : ℕ → ℤ := fun j => ((m j).val : ℤ)
  have hd : ∀ j, ((d' j : ℤ) : ZMod intModulus) = m j := fun j => by
    simp only [d', Int.cast_natCast, ZMod.natCast_zmod_val]
  obtain ⟨e0, e1, hp, he'⟩ := heTriples_pair he h0 h1 rnd0 (seqOf (fun j => ⟨a' j, b' j, d' j⟩) pos1) rs0 rs1 pos0 pos1 n
    (by unfold heBatches maxHeBatch; omega)
  refine ⟨d', fun j => ⟨Int.natCast_nonneg _, Int.ofNat_lt.2 (ZMod.val_lt (m j))⟩, _, _, hp.always, ?_, ?_⟩
  · refine List.map_congr_left fun j hj => ?_
    obtain ⟨h2, -⟩ := he' j (List.mem_range.1 hj)
    obtain ⟨q0, q1, q2⟩ := seqOf_spec (fun j => (⟨a' j, b' j, d' j⟩ : HeDraw)) pos1 j
    rw [q1, q2] at h2
    simp only [heTriple, Triple.mk.injEq, true_and]
    rw [← val_of_canon (fmod_canon _), ← val_of_canon (hc j)]
    congr 2
    simp only [fmod_cast, Int.cast_add, Int.cast_mul, h2, hd, m]
    ring
  · simp only [heList, List.map_map]
    refine List.map_congr_left fun j _ => ?_
    obtain ⟨q0, q1, -⟩ := seqOf_spec (fun j => (⟨a' j, b' j, d' j⟩ : HeDraw)) pos1 j
    simp only [Function.comp, heTriple, q0, q1]

/-! ## Non-vacuity -/

/-- A packed "encryption" without secrecy, in the clear: the laws of `PackedHe` can be met. -/
noncomputable def clearHe : PackedHe intModulus where
  Pk := Unit
  Sk := Unit
  Ct := Fin 8192 → ZMod intModulus
  R := Unit
  slots := 8192
  enc _ _ vs := fun j => slotVal intModulus vs j
  mulPlain c vs := fun j => c j * slotVal intModulus vs j
  sub c c' := fun j => c j - c' j
  get _ c j := if h : j < 8192 then ((c ⟨j, h⟩).val : ℤ) else 0
  serPk _ := [0#8]
  dePk _ := some ()
  serCt c := (List.ofFn fun j => ((c j).val : ℤ)).flatMap fmpzBytes
  deCt bs := ((rdFmpz.rep 8192).run bs).map fun r j => ((r.1.getD j 0 : ℤ) : ZMod intModulus)
  KeyPair _ _ := True
  Is _ _ c f := ∀ j : Fin 8192, c j = f j
  slots_big := le_refl _
  enc_is _ _ _ _ _ := rfl
  mul_is _ c f vs h _ j := by dsimp only; rw [h j]
  sub_is _ c f c' f' h h' j := by dsimp only; rw [h j, h' j]
  get_is _ _ c f _ h j hj := by
    have hne : NeZero intModulus := ⟨by decide⟩
    rw [dif_pos hj, ← h ⟨j, hj⟩, Int.cast_natCast, ZMod.natCast_zmod_val]
  dePk_ser _ := rfl
  deCt_ser c := by
    have hne : NeZero intModulus := ⟨by decide⟩
    have hr := (reads_fmpz_rep (List.ofFn fun j => ((c j).val : ℤ)) (by
      intro x hx
      obtain ⟨j, rfl⟩ := List.mem_ofFn.1 hx
      exact fits_canon ⟨by positivity, by exact_mod_cast ZMod.val_lt _⟩)).run_eq
    rw [List.length_ofFn] at hr
    rw [hr, Option.map_some]
    refine congrArg some (funext fun j => ?_)
    dsimp only
    rw [List.getD_eq_getElem _ _ (by rw [List.length_ofFn]; exact j.2), List.getElem_ofFn, Int.cast_natCast, ZMod.natCast_zmod_val]
  serPk_len _ := ⟨by decide, by decide⟩
  serCt_len c := by
    rw [flatMap_fmpz_length, List.length_ofFn]
    decide

/-- 20000 triples in three batches, from arbitrary draws. -/
example (rnd0 rnd1 : ℕ → ℤ) : ∃ t0 t1, Always (heTriples clearHe () () () rnd0 (fun _ => ((), ())) 0 20000)
    (heTriples clearHe () () () rnd1 (fun _ => ((), ())) 0 20000) (t0, 60000) (t1, 60000) ∧ Multiply 20000 t0 t1 :=
  C58_triples clearHe trivial trivial rnd0 rnd1 _ _ 0 0 20000 (by decide)

example : heBatches 20000 = 3 ∧ (List.range 3).map (heBatchLen 20000) = [8192, 8192, 3616] := by decide

end Verif

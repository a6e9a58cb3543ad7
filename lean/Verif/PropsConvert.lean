import Verif.PropsCorrelated

/-!
# C19 and C23: conversion of multi-bit shares
-/

namespace Verif

theorem getD_flatten {α : Type} (L : List (List α)) (k : ℕ) (h : ∀ l ∈ L, l.length = k) (i j : ℕ) (hj : j < k)
    (hi : i < L.length) (d : α) : L.flatten.getD (i * k + j) d = (L.getD i []).getD j d := by
  induction L generalizing i with
  | nil => simp at hi
  | cons l L ih =>
    have hl := h l (List.mem_cons_self ..)
    cases i with
    | zero => simp [List.getD, List.getElem?_append, hl, hj]
    | succ i =>
      have := ih (fun l hl => h l (List.mem_cons_of_mem _ hl)) i (by simpa using hi)
      rw [List.flatten_cons, show (i + 1) * k + j = l.length + (i * k + j) by rw [hl]; ring]
      simpa [List.getD, List.getElem?_append] using this

theorem pieces_length {α : Type} (k n : ℕ) (l : List α) : (pieces k n l).length = n := by
  induction n generalizing l with
  | zero => rfl
  | succ n ih => simp [pieces, ih]

theorem pieces_mem {α : Type} (k n : ℕ) (l : List α) (h : l.length = n * k) : ∀ q ∈ pieces k n l, q.length = k := by
  induction n generalizing l with
  | zero => simp [pieces]
  | succ n ih =>
    intro q hq
    have h' : l.length = n * k + k := by rw [h]; ring
    simp only [pieces, List.mem_cons] at hq
    rcases hq with rfl | hq
    · simp; omega
    · exact ih _ (by simp; omega) q hq

theorem getD_pieces {α : Type} (k n : ℕ) (l : List α) (i j : ℕ) (hi : i < n) (hj : j < k) (d : α) :
    ((pieces k n l).getD i []).getD j d = l.getD (i * k + j) d := by
  induction n generalizing l i with
  | zero => omega
  | succ n ih =>
    cases i with
    | zero => simp [pieces, List.getD, hj]
    | succ i =>
      have := ih (l.drop k) i (by omega)
      rw [show (i + 1) * k + j = k + (i * k + j) by ring]
      simpa [pieces, List.getD] using this

theorem length_flatten_const {α : Type} (L : List (List α)) (k : ℕ) (h : ∀ l ∈ L, l.length = k) :
    L.flatten.length = L.length * k := by
  induction L with
  | nil => simp
  | cons l L ih =>
    rw [List.flatten_cons, List.length_append, ih (fun l hl => h l (List.mem_cons_of_mem _ hl)),
      h l (List.mem_cons_self ..), List.length_cons]; ring

/-- The value of entry `i` of a flat array of words. -/
def entry (l : List U64) (i : ℕ) : U64 := l.getD i 0

/-- C19 in compositional form. -/
theorem shareConvert_pair {p : ℕ} (hp : GoodMod p) (hp48 : 2 ^ 47 ≤ p) (raw0 raw1 : ℕ → ℕ → ℕ → U64) (ns nv : ℕ)
    (ws : List ℕ) (f0 f1 : List U64) (h0 : f0.length = ns * nv) (h1 : f1.length = ns * nv) (hn : ws.length = nv)
    (hw : ∀ w ∈ ws, w ≤ 48) :
    ∃ r0 r1, Pair (shareConvert p false raw0 ns nv ws f0) (shareConvert p true raw1 ns nv ws f1) r0 r1 ∧
      r0.length = ns * nv ∧ r1.length = ns * nv ∧ (∀ a ∈ r0, Canon a p) ∧ (∀ a ∈ r1, Canon a p) ∧
      ∀ i < ns, ∀ j < nv, (r0.getD (i * nv + j) 0 + r1.getD (i * nv + j) 0) ≡
        (((entry f0 (i * nv + j) ^^^ entry f1 (i * nv + j)).toNat % 2 ^ ws.getD j 0 : ℕ) : ℤ) [ZMOD p] := by
  have hm' := mod_toNat hp
  have hm : BitVec.ofNat 64 p ≠ 0#64 := by
    intro h; rw [h] at hm'; have := hp.big; simp at hm'; omega
  have hb : (BitVec.ofNat 64 p).toNat ≤ 2 ^ 62 := by rw [hm']; exact hp.small.le
  set m := BitVec.ofNat 64 p with hmdef
  set rows : List IntRow := (pieces nv ns f0).zipIdx.map fun q => ⟨q.1, true, raw0 q.2⟩ with hrows
  have hrl : rows.length = ns := by simp [hrows, pieces_length]
  have hyl : (pieces nv ns f1).length = ns := pieces_length ..
  have hx : ∀ r ∈ rows, r.vals.length = ws.length := by
    intro r hr
    obtain ⟨q, hq, rfl⟩ := List.mem_map.1 hr
    rw [hn]
    have := (List.mem_zipIdx' hq).2
    simp only [this]
    exact pieces_mem nv ns f0 h0 _ (List.getElem_mem _)
  have hy : ∀ y ∈ pieces nv ns f1, y.length = ws.length := by rw [hn]; exact pieces_mem nv ns f1 h1
  have hP := intsum_pair m false rows (pieces nv ns f1) ws (by rw [hrl, hyl]) hx hy fun w h => (hw w h).trans (by norm_num)
  have hM := matAgree_of_ok (rows_ok (interpMod m hm hb) rows (pieces nv ns f1) ws (by rw [hrl, hyl]) hx hy
    fun w h k hk raw => cellMod m hm hb raw k (by
      rw [hm']
      exact (Nat.pow_le_pow_right (by norm_num) (by have := hw w h; omega : k ≤ 47)).trans hp48))
  generalize rows.map (fun r => (senderRow m ws r).2) = A at hP hM
  generalize recvRows m ws _ _ = B at hP hM
  have hT : ∀ i < ns, ((matTarget rows (pieces nv ns f1) ws).getD i []) =
      rowTarget true ((pieces nv ns f0).getD i []) ((pieces nv ns f1).getD i []) ws := by
    intro i hi
    have e1 : i < (pieces nv ns f0).length := by rw [pieces_length]; exact hi
    have e2 : i < (pieces nv ns f1).length := by rw [pieces_length]; exact hi
    simp [matTarget, hrows, List.getD, e1, e2]
  have hTl : (matTarget rows (pieces nv ns f1) ws).length = ns := by simp [matTarget, hrl, hyl]
  have hpl : ∀ (f : List U64), f.length = ns * nv → ∀ i < ns, ((pieces nv ns f).getD i []).length = nv := by
    intro f hf i hi
    have e1 : i < (pieces nv ns f).length := by rw [pieces_length]; exact hi
    apply pieces_mem nv ns f hf
    simp [List.getD, e1]
  have hTr : ∀ i < ns, ((matTarget rows (pieces nv ns f1) ws).getD i []).length = nv := by
    intro i hi
    rw [hT i hi]
    simp only [rowTarget, List.length_zipWith, List.length_zip, hpl f0 h0 i hi, hpl f1 h1 i hi, hn, min_self]
  obtain ⟨hA, hB, hAB⟩ := hM
  rw [hTl] at hA hB hAB
  have hAl : ∀ l ∈ A, l.length = nv := by
    intro l hl
    obtain ⟨i, hi, rfl⟩ := List.getElem_of_mem hl
    have := (hAB i (by omega)).1
    rw [hTr i (by omega)] at this
    simpa [List.getD, hi] using this
  have hBl : ∀ l ∈ B, l.length = nv := by
    intro l hl
    obtain ⟨i, hi, rfl⟩ := List.getElem_of_mem hl
    have := (hAB i (by omega)).2.1
    rw [hTr i (by omega)] at this
    simpa [List.getD, hi] using this
  have hsm : ∀ w : U64, (interpMod m hm hb).small w → Canon (w.toNat : ℤ) p := by
    intro w hw
    have hw : w.toNat < m.toNat := hw
    rw [hm'] at hw
    exact ⟨by positivity, by exact_mod_cast hw⟩
  refine ⟨A.flatten.map fun w => (w.toNat : ℤ), B.flatten.map fun w => (w.toNat : ℤ), ?_, ?_, ?_, ?_, ?_, ?_⟩
  · unfold shareConvert
    rw [if_neg (by simp [h0, hn]), if_neg (by simp [h1, hn])]
    exact hP.bind (Pair.ret _ _)
  · rw [List.length_map, length_flatten_const _ _ hAl, hA]
  · rw [List.length_map, length_flatten_const _ _ hBl, hB]
  · intro a ha
    obtain ⟨w, hw, rfl⟩ := List.mem_map.1 ha
    obtain ⟨l, hl, hwl⟩ := List.mem_flatten.1 hw
    obtain ⟨i, hi, rfl⟩ := List.getElem_of_mem hl
    obtain ⟨j, hj, rfl⟩ := List.getElem_of_mem hwl
    have := ((hAB i (by omega)).2.2 j (by rw [hTr i (by omega), ← hAl _ hl]; exact hj)).1
    apply hsm
    simpa [List.getD, hi, hj] using this
  · intro a ha
    obtain ⟨w, hw, rfl⟩ := List.mem_map.1 ha
    obtain ⟨l, hl, hwl⟩ := List.mem_flatten.1 hw
    obtain ⟨i, hi, rfl⟩ := List.getElem_of_mem hl
    obtain ⟨j, hj, rfl⟩ := List.getElem_of_mem hwl
    have := ((hAB i (by omega)).2.2 j (by rw [hTr i (by omega), ← hBl _ hl]; exact hj)).2.1
    apply hsm
    simpa [List.getD, hi, hj] using this
  · intro i hi j hj
    have := ((hAB i hi).2.2 j (by rw [hTr i hi]; exact hj)).2.2
    have e : ∀ (L : List (List U64)), L.length = ns → (∀ l ∈ L, l.length = nv) →
        (L.flatten.map fun w => (w.toNat : ℤ)).getD (i * nv + j) 0 = (((L.getD i []).getD j 0).toNat : ℤ) := by
      intro L hL hl
      rw [← getD_flatten L nv hl i j hj (by omega)]
      simp only [List.getD, List.getElem?_map]
      cases L.flatten[i * nv + j]? <;> simp
    rw [e A hA hAl, e B hB hBl]
    have h4 : (((_ : U64).toNat : ℕ) : ZMod m.toNat) + (((_ : U64).toNat : ℕ) : ZMod m.toNat) = _ := this
    rw [hT i hi] at h4
    have e5 : (rowTarget true ((pieces nv ns f0).getD i []) ((pieces nv ns f1).getD i []) ws).getD j 0 =
        (entry f0 (i * nv + j) ^^^ entry f1 (i * nv + j)).toNat % 2 ^ ws.getD j 0 := by
      unfold entry
      rw [← getD_pieces nv ns f0 i j hi hj, ← getD_pieces nv ns f1 i j hi hj]
      have q0 := hpl f0 h0 i hi
      have q1 := hpl f1 h1 i hi
      generalize (pieces nv ns f0).getD i [] = a at q0 ⊢
      generalize (pieces nv ns f1).getD i [] = b at q1 ⊢
      simp [rowTarget, List.getD, q0, q1, hn, hj, xorLow, List.zip]
    rw [e5] at h4
    rw [← ZMod.intCast_eq_intCast_iff, ← hm']
    rw [Int.cast_add, Int.cast_natCast, Int.cast_natCast, Int.cast_natCast]
    exact h4

/-- C19. `share_convert` with widths at most 48: for every schedule and all masks, canonical results, and for every row
`i` and column `j` they add up, modulo the field modulus, to the XOR of the two shares restricted to the column's width. -/
theorem C19_ot_conversion (raw0 raw1 : ℕ → ℕ → ℕ → U64) (ns nv : ℕ)
    (ws : List ℕ) (f0 f1 : List U64) (h0 : f0.length = ns * nv) (h1 : f1.length = ns * nv) (hn : ws.length = nv)
    (hw : ∀ w ∈ ws, w ≤ 48) :
    ∃ r0 r1, Always (shareConvert intModulus false raw0 ns nv ws f0) (shareConvert intModulus true raw1 ns nv ws f1) r0 r1 ∧
      r0.length = ns * nv ∧ r1.length = ns * nv ∧ (∀ a ∈ r0, Canon a intModulus) ∧ (∀ a ∈ r1, Canon a intModulus) ∧
      ∀ i < ns, ∀ j < nv, (r0.getD (i * nv + j) 0 + r1.getD (i * nv + j) 0) ≡
        (((entry f0 (i * nv + j) ^^^ entry f1 (i * nv + j)).toNat % 2 ^ ws.getD j 0 : ℕ) : ℤ) [ZMOD intModulus] :=
  let ⟨r0, r1, hP, h⟩ := shareConvert_pair goodModulus (by decide) raw0 raw1 ns nv ws f0 f1 h0 h1 hn hw
  ⟨r0, r1, hP.always, h⟩

example : ([5#64, 6#64, 7#64, 8#64] : List U64).length = 2 * 2 ∧ [3, 48].length = 2 ∧ ∀ w ∈ [3, 48], w ≤ 48 := by decide

/-- C19, the limit: one share of width 49, both shares `2^48`, mask 0. The XOR is 0 but the results do not add up to 0. -/
theorem C19_false_at_49_bits :
    ∃ r0 r1, Always (shareConvert intModulus false (fun _ _ _ => 0#64) 1 1 [49] [0x1000000000000#64])
        (shareConvert intModulus true (fun _ _ _ => 0#64) 1 1 [49] [0x1000000000000#64]) [r0] [r1] ∧
      (r0 + r1) % intModulus ≠ (((0x1000000000000#64 ^^^ 0x1000000000000#64 : U64).toNat % 2 ^ 49 : ℕ) : ℤ) % intModulus := by
  have hP := intsum_pair (BitVec.ofNat 64 intModulus) false [⟨[0x1000000000000#64], true, fun _ _ => 0#64⟩]
    [[0x1000000000000#64]] [49] rfl (by decide) (by decide) (by decide)
  have hP2 : Pair (shareConvert intModulus false (fun _ _ _ => 0#64) 1 1 [49] [0x1000000000000#64])
      (shareConvert intModulus true (fun _ _ _ => 0#64) 1 1 [49] [0x1000000000000#64]) _ _ := hP.bind (Pair.ret _ _)
  refine ⟨_, _, hP2.always, ?_⟩
  decide +kernel

/-! ## C23 -/

/-- Weighted sum of residues, lowest first. -/
def wsum {R : Type} [CommRing R] : List R → R
  | [] => 0
  | t :: ts => t + 2 * wsum ts

theorem wsum_add {R : Type} [CommRing R] (a b : List R) (h : a.length = b.length) :
    wsum (List.zipWith (· + ·) a b) = wsum a + wsum b := by
  induction a generalizing b with
  | nil => cases b <;> simp_all [wsum]
  | cons x a ih =>
    cases b with
    | nil => simp at h
    | cons y b => simp only [List.zipWith_cons_cons, wsum, ih b (by simpa using h)]; ring

theorem firstN_succ {α : Type} (f : ℕ → α) (n : ℕ) : firstN f (n + 1) = f 0 :: firstN (fun i => f (i + 1)) n := by
  simp [firstN, List.range_succ_eq_map, Function.comp_def]

theorem wsum_bits {R : Type} [CommRing R] (v w : ℕ) :
    wsum ((firstN v.testBit w).map fun b => if b then (1 : R) else 0) = ((v % 2 ^ w : ℕ) : R) := by
  induction w generalizing v with
  | zero => simp [firstN, wsum, Nat.mod_one]
  | succ w ih =>
    have e : (fun i => v.testBit (i + 1)) = (v / 2).testBit := by
      funext i; rw [Nat.testBit_add_one]
    rw [firstN_succ, e, List.map_cons, wsum, ih]
    have key : v % 2 ^ (w + 1) = (if v.testBit 0 then 1 else 0) + 2 * (v / 2 % 2 ^ w) := by
      rw [pow_succ', Nat.mod_mul, Nat.testBit_zero]
      rcases Nat.mod_two_eq_zero_or_one v with h | h <;> simp [h]
    rw [key]
    push_cast
    rfl

theorem wsum_append {R : Type} [CommRing R] (a b : List R) : wsum (a ++ b) = wsum a + 2 ^ a.length * wsum b := by
  induction a with
  | nil => simp [wsum]
  | cons x a ih => simp only [List.cons_append, wsum, ih, List.length_cons, pow_succ]; ring

theorem weighBits_ok {p : ℕ} (hp : GoodMod p) (j : ℕ) (ts : List ℤ) (acc : ℤ) (hj : j + ts.length ≤ 31) (hc : Canon acc p) :
    ∃ r, weighBits p j ts acc = some r ∧ Canon r p ∧
      ((r : ℤ) : ZMod p) = (acc : ZMod p) + 2 ^ j * wsum (ts.map fun t => ((t : ℤ) : ZMod p)) := by
  have : NeZero p := ⟨by have := hp.big; omega⟩
  induction ts generalizing j acc with
  | nil => exact ⟨acc, rfl, hc, by simp [wsum]⟩
  | cons t ts ih =>
    simp only [List.length_cons] at hj
    have hs : intShift j = some (2 ^ j) := by unfold intShift; rw [if_pos (by omega)]
    obtain ⟨r, h1, h2, h3⟩ := ih (j + 1) (fmod (acc + t * 2 ^ j) p) (by omega) (fmod_canon _)
    refine ⟨r, ?_, h2, ?_⟩
    · rw [weighBits, hs]; exact h1
    · rw [h3, fmod_cast]
      simp only [List.map_cons, wsum]
      push_cast; ring

theorem zero_canon {p : ℕ} (hp : GoodMod p) : Canon 0 p := ⟨le_refl _, by have := hp.big; omega⟩

theorem weighAll_ok {p : ℕ} (hp : GoodMod p) (ws xs : List ℕ) (hx : xs.length = ws.length) (hw : ∀ w ∈ ws, w ≤ 31)
    (l0 l1 : List ℤ) (h0 : l0.length = ws.sum) (h1 : l1.length = ws.sum)
    (hs : List.zipWith (fun a b => ((a + b : ℤ) : ZMod p)) l0 l1 =
      (List.zipWith (fun v w => firstN v.testBit w) xs ws).flatten.map fun b => if b then 1 else 0) :
    ∃ r0 r1, weighAll p ws l0 = some r0 ∧ weighAll p ws l1 = some r1 ∧ (∀ a ∈ r0, Canon a p) ∧ (∀ a ∈ r1, Canon a p) ∧
      r0.length = ws.length ∧ r1.length = ws.length ∧
      List.zipWith (fun a b => ((a + b : ℤ) : ZMod p)) r0 r1 = List.zipWith (fun v w => ((v % 2 ^ w : ℕ) : ZMod p)) xs ws := by
  induction ws generalizing xs l0 l1 with
  | nil => cases xs <;> simp_all [weighAll]
  | cons w ws ih =>
    cases xs with
    | nil => simp at hx
    | cons v xs =>
      rw [List.sum_cons] at h0 h1
      have hsp := hs
      simp only [List.zipWith_cons_cons, List.flatten_cons, List.map_append] at hsp
      have ht : List.zipWith (fun a b => ((a + b : ℤ) : ZMod p)) (l0.take w) (l1.take w) =
          (firstN v.testBit w).map fun b => if b then 1 else 0 := by
        have := congrArg (List.take w) hsp
        rw [List.take_zipWith] at this
        rw [this, List.take_append_of_le_length (by simp), List.take_of_length_le (by simp)]
      have hd : List.zipWith (fun a b => ((a + b : ℤ) : ZMod p)) (l0.drop w) (l1.drop w) =
          (List.zipWith (fun v w => firstN v.testBit w) xs ws).flatten.map fun b => if b then 1 else 0 := by
        have := congrArg (List.drop w) hsp
        rw [List.drop_zipWith] at this
        rw [this, List.drop_append_of_le_length (by simp)]
        simp
      obtain ⟨r0, r1, a0, a1, c0, c1, n0, n1, e⟩ := ih xs (by simpa using hx) (fun w h => hw w (List.mem_cons_of_mem _ h))
        (l0.drop w) (l1.drop w) (by simp; omega) (by simp; omega) hd
      have hw31 := hw w (List.mem_cons_self ..)
      obtain ⟨s0, b0, d0, f0⟩ := weighBits_ok hp 0 (l0.take w) 0 (by simp; omega) (zero_canon hp)
      obtain ⟨s1, b1, d1, f1⟩ := weighBits_ok hp 0 (l1.take w) 0 (by simp; omega) (zero_canon hp)
      refine ⟨s0 :: r0, s1 :: r1, ?_, ?_, ?_, ?_, by simp [n0], by simp [n1], ?_⟩
      · simp [weighAll, b0, a0]
      · simp [weighAll, b1, a1]
      · simpa using ⟨d0, c0⟩
      · simpa using ⟨d1, c1⟩
      · simp only [List.zipWith_cons_cons, e]
        congr 1
        rw [Int.cast_add, f0, f1]
        simp only [Int.cast_zero, zero_add, pow_zero, one_mul]
        rw [← wsum_add _ _ (by simp; omega), List.zipWith_map, ← wsum_bits, ← ht]
        congr 1
        simp

theorem bits_length (xs ws : List ℕ) (h : xs.length = ws.length) :
    (List.zipWith (fun v w => firstN v.testBit w) xs ws).flatten.length = ws.sum := by
  induction ws generalizing xs with
  | nil => cases xs <;> simp_all
  | cons w ws ih =>
    cases xs with
    | nil => simp at h
    | cons v xs => simp [ih xs (by simpa using h)]

theorem firstN_xor (a b w : ℕ) : firstN (a ^^^ b).testBit w = List.zipWith (· != ·) (firstN a.testBit w) (firstN b.testBit w) := by
  unfold firstN
  rw [List.zipWith_map, List.zipWith_self]
  apply List.map_congr_left
  intro i _
  rw [Nat.testBit_xor]

theorem bits_xor (x0 x1 ws : List ℕ) (h0 : x0.length = ws.length) (h1 : x1.length = ws.length) :
    (List.zipWith (fun v w => firstN v.testBit w) (List.zipWith (· ^^^ ·) x0 x1) ws).flatten =
      List.zipWith (· != ·) (List.zipWith (fun v w => firstN v.testBit w) x0 ws).flatten
        (List.zipWith (fun v w => firstN v.testBit w) x1 ws).flatten := by
  induction ws generalizing x0 x1 with
  | nil => cases x0 <;> cases x1 <;> simp_all
  | cons w ws ih =>
    cases x0 with
    | nil => simp at h0
    | cons a x0 =>
    cases x1 with
    | nil => simp at h1
    | cons b x1 =>
      simp only [List.zipWith_cons_cons, List.flatten_cons]
      rw [ih x0 x1 (by simpa using h0) (by simpa using h1), List.zipWith_append (by simp), firstN_xor]

/-- The outcome of the conversion before the weighting (correlated.cpp:268-288). -/
theorem b2aMulti_prefix {p : ℕ} (hp : GoodMod p) (c : StoreCfg) (g0 g1 : StoreRng) (hg : GoodRng p g0)
    (ws x0 x1 : List ℕ) (h0 : x0.length = ws.length) (h1 : x1.length = ws.length) (s0 s1 : Store) (h : StoresOk p s0 s1) :
    ∃ r0 r1 s0' s1',
      Pair ((checkDaBits p c g0 false ws.sum s0).bind fun s =>
          b2aSingle p c g0 false (List.zipWith (fun v w => firstN v.testBit w) x0 ws).flatten s)
        ((checkDaBits p c g1 true ws.sum s1).bind fun s =>
          b2aSingle p c g1 true (List.zipWith (fun v w => firstN v.testBit w) x1 ws).flatten s)
        (r0, s0') (r1, s1') ∧ r0.length = ws.sum ∧ r1.length = ws.sum ∧
      List.zipWith (fun a b => ((a + b : ℤ) : ZMod p)) r0 r1 =
        (List.zipWith (fun v w => firstN v.testBit w) (List.zipWith (· ^^^ ·) x0 x1) ws).flatten.map
          (fun b => if b then 1 else 0) ∧
      DaStep p s0 s1 s0' s1' ws.sum := by
  obtain ⟨t0, t1, hP, hok, hlen, ⟨d0, d1, e0, e1, hd⟩, htr0, htr1, _⟩ := checkDaBits_pair hp c g0 g1 hg ws.sum s0 s1 h
  have l0 := bits_length x0 ws h0
  have l1 := bits_length x1 ws h1
  obtain ⟨r0, r1, s0', s1', hQ, _, _, n0, n1, e, st⟩ := b2aSingle_pair hp c g0 g1 hg _ _ (l0.trans l1.symm) t0 t1 hok
  refine ⟨r0, r1, s0', s1', hP.bind hQ, n0.trans l0, n1.trans l0, ?_, st.ok, ?_, ?_⟩
  · rw [e, bits_xor _ _ _ h0 h1, List.map_zipWith]
  · obtain ⟨d0', d1', e0', e1', hd', hle⟩ := st.new
    rw [l0, e0] at e0' hle
    rw [l0, e1] at e1'
    exact ⟨d0 ++ d0', d1 ++ d1', by rw [e0', List.append_assoc], by rw [e1', List.append_assoc], by simp [hd, hd'],
      by rwa [← List.append_assoc]⟩
  · exact ⟨st.tr.1.trans htr0, st.tr.2.trans htr1⟩

theorem b2aMulti_eq (p : ℕ) (c : StoreCfg) (g : StoreRng) (sv : Bool) (ws x : List ℕ) (h : x.length = ws.length) (s : Store) :
    b2aMulti p c g sv ws x s = ((checkDaBits p c g sv ws.sum s).bind fun s =>
      b2aSingle p c g sv (List.zipWith (fun v w => firstN v.testBit w) x ws).flatten s).bind fun a =>
      (Proc.ofOption (weighAll p ws a.1)).bind fun r => .ret (r, a.2) := by
  unfold b2aMulti
  rw [if_neg (by simp [h]), Proc.bind_assoc]

/-- C23 in compositional form. -/
theorem b2aMulti_pair {p : ℕ} (hp : GoodMod p) (c : StoreCfg) (g0 g1 : StoreRng) (hg : GoodRng p g0)
    (ws x0 x1 : List ℕ) (h0 : x0.length = ws.length) (h1 : x1.length = ws.length) (hw : ∀ w ∈ ws, w ≤ 31)
    (s0 s1 : Store) (h : StoresOk p s0 s1) :
    ∃ r0 r1 s0' s1', Pair (b2aMulti p c g0 false ws x0 s0) (b2aMulti p c g1 true ws x1 s1) (r0, s0') (r1, s1') ∧
      (∀ a ∈ r0, Canon a p) ∧ (∀ a ∈ r1, Canon a p) ∧ r0.length = ws.length ∧ r1.length = ws.length ∧
      List.zipWith (fun a b => ((a + b : ℤ) : ZMod p)) r0 r1 =
        List.zipWith (fun v w => ((v % 2 ^ w : ℕ) : ZMod p)) (List.zipWith (· ^^^ ·) x0 x1) ws ∧
      DaStep p s0 s1 s0' s1' ws.sum := by
  obtain ⟨r0, r1, s0', s1', hP, n0, n1, e, st⟩ := b2aMulti_prefix hp c g0 g1 hg ws x0 x1 h0 h1 s0 s1 h
  obtain ⟨q0, q1, w0, w1, c0, c1, m0, m1, e'⟩ := weighAll_ok hp ws _ (by simp [h0, h1]) hw r0 r1 n0 n1 e
  refine ⟨q0, q1, s0', s1', ?_, c0, c1, m0, m1, e', st⟩
  rw [b2aMulti_eq _ _ _ _ _ _ h0, b2aMulti_eq _ _ _ _ _ _ h1]
  refine hP.bind ?_
  simp only [w0, w1]
  exact Pair.ret _ _

/-- C23. Widths at most 31: for every schedule, generation mode and all draws, the results are canonical and add up entry
by entry to the XOR of the two inputs restricted to the width; exactly one daBit per bit is used on each side. -/
theorem C23_multi_bit_conversion (c : StoreCfg) (g0 g1 : StoreRng) (hg : GoodRng intModulus g0)
    (ws x0 x1 : List ℕ) (h0 : x0.length = ws.length) (h1 : x1.length = ws.length) (hw : ∀ w ∈ ws, w ≤ 31)
    (s0 s1 : Store) (h : StoresOk intModulus s0 s1) :
    ∃ r0 r1 s0' s1', Always (b2aMulti intModulus c g0 false ws x0 s0) (b2aMulti intModulus c g1 true ws x1 s1)
        (r0, s0') (r1, s1') ∧
      (∀ a ∈ r0, Canon a intModulus) ∧ (∀ a ∈ r1, Canon a intModulus) ∧ r0.length = ws.length ∧ r1.length = ws.length ∧
      List.zipWith (fun a b => ((a + b : ℤ) : ZMod intModulus)) r0 r1 =
        List.zipWith (fun v w => ((v % 2 ^ w : ℕ) : ZMod intModulus)) (List.zipWith (· ^^^ ·) x0 x1) ws ∧
      DaStep intModulus s0 s1 s0' s1' ws.sum :=
  let ⟨r0, r1, s0', s1', hP, h⟩ := b2aMulti_pair goodModulus c g0 g1 hg ws x0 x1 h0 h1 hw s0 s1 h
  ⟨r0, r1, s0', s1', hP.always, h⟩

example : [5, 2 ^ 31 - 1].length = [3, 31].length ∧ ∀ w ∈ [3, 31], w ≤ 31 := by decide

/-- Weighting 33 or more bits is undefined. -/
theorem weighBits_none (p j : ℕ) (ts : List ℤ) (acc : ℤ) (h : 33 ≤ j + ts.length) (hj : j ≤ 32) : weighBits p j ts acc = none := by
  induction ts generalizing j acc with
  | nil => simp at h; omega
  | cons t ts ih =>
    rw [weighBits]
    by_cases h32 : j = 32
    · subst h32; rfl
    · cases hs : intShift j with
      | none => rfl
      | some w => exact ih _ _ (by simp at h; omega) (by omega)

theorem weighAll_none (p : ℕ) (ws : List ℕ) (l : List ℤ) (hl : l.length = ws.sum) (w : ℕ) (hw : w ∈ ws) (h : 33 ≤ w) :
    weighAll p ws l = none := by
  induction ws generalizing l with
  | nil => simp at hw
  | cons v ws ih =>
    rw [List.sum_cons] at hl
    rw [weighAll]
    rcases List.mem_cons.1 hw with rfl | hw
    · rw [weighBits_none _ _ _ _ (by simp; omega) (by omega)]; rfl
    · rw [ih (l.drop v) (by simp; omega) hw]
      cases weighBits p 0 (l.take v) 0 <;> rfl

/-- C23, the limit (1): with a width of 33 or more, both servers run into undefined behaviour (the shift count exceeds the
width of `int`). -/
theorem C23_undefined_from_33_bits (c : StoreCfg) (g0 g1 : StoreRng) (hg : GoodRng intModulus g0)
    (ws x0 x1 : List ℕ) (h0 : x0.length = ws.length) (h1 : x1.length = ws.length) (w : ℕ) (hw : w ∈ ws) (h33 : 33 ≤ w)
    (s0 s1 : Store) (h : StoresOk intModulus s0 s1) :
    Steps ⟨b2aMulti intModulus c g0 false ws x0 s0, b2aMulti intModulus c g1 true ws x1 s1, [], []⟩ ⟨.fault, .fault, [], []⟩ := by
  obtain ⟨r0, r1, s0', s1', hP, n0, n1, _⟩ := b2aMulti_prefix goodModulus c g0 g1 hg ws x0 x1 h0 h1 s0 s1 h
  rw [b2aMulti_eq _ _ _ _ _ _ h0, b2aMulti_eq _ _ _ _ _ _ h1]
  have := hP _ _ (fun a => (Proc.ofOption (weighAll intModulus ws a.1)).bind fun r => .ret (r, a.2))
    (fun a => (Proc.ofOption (weighAll intModulus ws a.1)).bind fun r => .ret (r, a.2))
  simpa [weighAll_none _ _ _ n0 w hw h33, weighAll_none _ _ _ n1 w hw h33, Proc.ofOption, Proc.bind] using this

theorem weighBits_append (p : ℕ) (j : ℕ) (a b : List ℤ) (acc : ℤ) :
    weighBits p j (a ++ b) acc = (weighBits p j a acc).bind fun r => weighBits p (j + a.length) b r := by
  induction a generalizing j acc with
  | nil => simp [weighBits]
  | cons t a ih =>
    simp only [List.cons_append, weighBits, List.length_cons]
    cases intShift j with
    | none => rfl
    | some w => simp only [Option.bind_some]; rw [ih, show j + 1 + a.length = j + (a.length + 1) by omega]

/-- C23, the limit (2): one value of width 32. Whenever bit 31 of the XOR is set the two results add up to a wrong value. -/
theorem C23_wrong_at_32_bits (c : StoreCfg) (g0 g1 : StoreRng) (hg : GoodRng intModulus g0)
    (x0 x1 : ℕ) (hbit : (x0 ^^^ x1).testBit 31 = true) (s0 s1 : Store) (h : StoresOk intModulus s0 s1) :
    ∃ r0 r1 s0' s1', Always (b2aMulti intModulus c g0 false [32] [x0] s0) (b2aMulti intModulus c g1 true [32] [x1] s1)
        ([r0], s0') ([r1], s1') ∧
      ((r0 + r1 : ℤ) : ZMod intModulus) ≠ (((x0 ^^^ x1) % 2 ^ 32 : ℕ) : ZMod intModulus) := by
  obtain ⟨l0, l1, s0', s1', hP, n0, n1, e, st⟩ := b2aMulti_prefix goodModulus c g0 g1 hg [32] [x0] [x1] rfl rfl s0 s1 h
  have split : ∀ l : List ℤ, l.length = 32 → ∃ a t, l = a ++ [t] ∧ a.length = 31 := by
    intro l hl
    refine ⟨l.take 31, l[31], ?_, by simp; omega⟩
    rw [List.take_append_getElem, List.take_of_length_le (by omega)]
  obtain ⟨a0, t0, rfl, k0⟩ := split l0 n0
  obtain ⟨a1, t1, rfl, k1⟩ := split l1 n1
  have e' : List.zipWith (fun a b => ((a + b : ℤ) : ZMod intModulus)) (a0 ++ [t0]) (a1 ++ [t1]) =
      (firstN (x0 ^^^ x1).testBit 31).map (fun b => if b then 1 else 0) ++ [1] := by
    rw [e]
    simp only [List.zipWith_cons_cons, List.zipWith_nil_left, List.flatten_cons, List.flatten_nil, List.append_nil]
    unfold firstN
    rw [show (32 : ℕ) = 31 + 1 from rfl, List.range_succ, List.map_append, List.map_append]
    simp [hbit]
  rw [List.zipWith_append (by rw [k0, k1])] at e'
  obtain ⟨ea, et⟩ := List.append_inj' e' rfl
  simp only [List.zipWith_cons_cons, List.zipWith_nil_left, List.cons.injEq, and_true] at et
  obtain ⟨u0, b0, _, f0⟩ := weighBits_ok goodModulus 0 a0 0 (by omega) (zero_canon goodModulus)
  obtain ⟨u1, b1, _, f1⟩ := weighBits_ok goodModulus 0 a1 0 (by omega) (zero_canon goodModulus)
  have w : ∀ (a : List ℤ) (t u : ℤ), a.length = 31 → weighBits intModulus 0 a 0 = some u →
      weighAll intModulus [32] (a ++ [t]) = some [fmod (u + t * (2 ^ 64 - 2 ^ 31)) intModulus] := by
    intro a t u ha hu
    simp only [weighAll]
    rw [List.take_of_length_le (by simp [ha]), weighBits_append, hu]
    simp [ha, weighBits, intShift]
  refine ⟨_, _, s0', s1', Pair.always (a := ([fmod (u0 + t0 * (2 ^ 64 - 2 ^ 31)) intModulus], s0'))
    (b := ([fmod (u1 + t1 * (2 ^ 64 - 2 ^ 31)) intModulus], s1')) ?_, ?_⟩
  · rw [b2aMulti_eq _ _ _ _ [32] [x0] rfl, b2aMulti_eq _ _ _ _ [32] [x1] rfl]
    refine hP.bind ?_
    simp only [w _ _ _ k0 b0, w _ _ _ k1 b1]
    exact Pair.ret _ _
  · rw [Int.cast_add, fmod_cast, fmod_cast]
    simp only [Int.cast_zero, zero_add, pow_zero, one_mul] at f0 f1
    rw [Int.cast_add, Int.cast_add, Int.cast_mul, Int.cast_mul, f0, f1]
    have hsum : wsum (a0.map fun t => ((t : ℤ) : ZMod intModulus)) + wsum (a1.map fun t => ((t : ℤ) : ZMod intModulus)) =
        (((x0 ^^^ x1) % 2 ^ 31 : ℕ) : ZMod intModulus) := by
      rw [← wsum_add _ _ (by simp [k0, k1]), List.zipWith_map, ← wsum_bits, ← ea]
      congr 1
      simp
    have h32 : (x0 ^^^ x1) % 2 ^ 32 = (x0 ^^^ x1) % 2 ^ 31 + 2 ^ 31 := by
      rw [show (2 : ℕ) ^ 32 = 2 ^ 31 * 2 by norm_num, Nat.mod_mul]
      have := hbit
      rw [Nat.testBit_eq_decide_div_mod_eq] at this
      simp only [decide_eq_true_eq] at this
      rw [this]
      rfl
    rw [h32, Nat.cast_add, ← hsum]
    rw [Int.cast_add] at et
    intro hc
    have e31 : ((2 ^ 31 : ℕ) : ZMod intModulus) = ((2 ^ 31 : ℤ) : ZMod intModulus) := by norm_cast
    have : ((2 ^ 64 - 2 ^ 31 - 2 ^ 31 : ℤ) : ZMod intModulus) = 0 := by
      rw [Int.cast_sub, ← e31]
      linear_combination hc - ((2 ^ 64 - 2 ^ 31 : ℤ) : ZMod intModulus) * et
    rw [ZMod.intCast_zmod_eq_zero_iff_dvd] at this
    revert this
    decide +kernel

/-- The hypothesis of the limit is met by small values. -/
example : (2 ^ 31 ^^^ 5 : ℕ).testBit 31 = true := by decide

end Verif

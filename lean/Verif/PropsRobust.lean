import Verif.LemmasRobust

/-! # C68: what dishonest clients can do to the answer (BIT_SUM, INT_SUM, AND, OR, MAX, MIN) -/

namespace Verif

variable {n : ℕ} {key : Fin n → Bytes}

/-- C68 for BIT_SUM. Honest clients, any others, any arrival order: the answer is the honest sum plus what the others' submissions
would give on their own, which is at most the number of keys for which the others reach both servers. -/
theorem C68_bit_sum {A0 A1 : List (Fin n ⊕ Bytes × Bool)} (hA0 : Arrives key A0) (hA1 : Arrives key A1)
    (hk : ∀ i, (key i).length = pkLength) (ho0 : Keyed (others A0)) (ho1 : Keyed (others A1)) (hlen : A1.length < 2 ^ 32) :
    ∃ m e, e ≤ m ∧ m ≤ (others A0).length ∧ m ≤ (others A1).length ∧
    ∀ (real share : Fin n → Bool) (rest0 rest1 : Bytes) (ord : Map Bool → Map Bool) (_ : IsOrder ord) (junk : ℕ → Bool) (raw : ℕ → U64),
      Always (bitSumOp0 A0.length (encBitShares (fill key A0 fun i => (clientBit (real i) (share i)).1) ++ rest0) junk raw)
        (bitSumOp1 A1.length (encBitShares (fill key A1 fun i => (clientBit (real i) (share i)).2) ++ rest1) ord)
        (verdict (n + m) A0.length (BitVec.ofNat 64 ((∑ i, (real i).toNat) + e))) .noAns := by
  refine ⟨(bothKeys (fun _ => true) (others A0) (others A1)).card, bitCount (others A0) (others A1), Finset.card_filter_le _ _,
    (both_others_le A0 A1).1, (both_others_le A0 A1).2, fun real share rest0 rest1 ord ho junk raw => ?_⟩
  have h := C35_bit_sum (fill key A0 fun i => (clientBit (real i) (share i)).1) (fill key A1 fun i => (clientBit (real i) (share i)).2)
    rest0 rest1 (keyed_fill _ hk ho0) (keyed_fill _ hk ho1) (by rw [fill_length]; exact hlen) ord ho junk raw
  rw [fill_length, fill_length, both_card hA0 hA1 (fun _ => rfl) (fun _ => rfl)] at h
  have e : bitCount (fill key A0 fun i => (clientBit (real i) (share i)).1) (fill key A1 fun i => (clientBit (real i) (share i)).2) =
      (∑ i, (real i).toNat) + bitCount (others A0) (others A1) := by
    unfold bitCount
    rw [Finset.card_filter, both_sum hA0 hA1 (fun _ => rfl) (fun _ => rfl), Finset.card_filter]
    congr 1
    · refine Finset.sum_congr rfl fun i _ => ?_
      rw [firstOf_honest hA0 i rfl, firstOf_honest hA1 i rfl]
      cases real i <;> cases share i <;> rfl
    · refine Finset.sum_congr rfl fun k hk => ?_
      rw [firstOf_others A0 _ (not_key_of_both hA0 hk), firstOf_others A1 _ (not_key_of_both hA0 hk)]
  rw [e] at h
  exact h

/-- C68 for INT_SUM: the answer is the honest sum plus a term that depends on the others only, at most `2^nbits - 1` for every key for
which the others reach both servers. -/
theorem C68_int_sum {nbits : ℕ} (hb : nbits < 64) {A0 A1 : List (Fin n ⊕ Bytes × U64)} (hA0 : Arrives key A0) (hA1 : Arrives key A1)
    (hk : ∀ i, (key i).length = pkLength) (ho0 : Keyed (others A0)) (ho1 : Keyed (others A1)) (hlen : A1.length < 2 ^ 32) :
    ∃ m e, e ≤ m * (2 ^ nbits - 1) ∧ m ≤ (others A0).length ∧ m ≤ (others A1).length ∧
    ∀ (real share : Fin n → U64) (rest0 rest1 : Bytes) (ord : Map U64 → Map U64) (_ : IsOrder ord) (junk : ℕ → U64)
      (raw : ℕ → ℕ → ℕ → U64),
      Always (intSumOp0 nbits A0.length (encIntShares (fill key A0 fun i => (clientInt nbits (real i) (share i)).2.1) ++ rest0) junk raw)
        (intSumOp1 nbits A1.length (encIntShares (fill key A1 fun i => (clientInt nbits (real i) (share i)).2.2) ++ rest1) ord)
        (verdict (n + m) A0.length (BitVec.ofNat 64 ((∑ i, (real i).toNat % 2 ^ nbits) + e))) .noAns := by
  refine ⟨(bothKeys (belowBits nbits) (others A0) (others A1)).card,
    ∑ k ∈ bothKeys (belowBits nbits) (others A0) (others A1), (intTerm (belowBits nbits) (others A0) (others A1) k).toNat, ?_,
    (both_others_le A0 A1).1, (both_others_le A0 A1).2, fun real share rest0 rest1 ord ho junk raw => ?_⟩
  · refine Finset.sum_le_card_nsmul _ _ _ fun k _ => ?_
    have := C49_int_term_lt nbits (others A0) (others A1) k
    omega
  have hs : ∀ a : U64, (a % (1#64 <<< nbits)).toNat < 2 ^ nbits := fun a => by
    rw [mod_shl hb]; exact Nat.mod_lt _ (pow_pos (by norm_num) _)
  have g0 : ∀ i, belowBits nbits (clientInt nbits (real i) (share i)).2.1 = true := fun i => by
    simpa [belowBits, clientInt] using hs (share i)
  have g1 : ∀ i, belowBits nbits (clientInt nbits (real i) (share i)).2.2 = true := fun i => by
    have := Nat.xor_lt_two_pow (hs (share i)) (hs (real i))
    exact decide_eq_true (by simpa only [clientInt, BitVec.toNat_xor] using this)
  have h := C36_int_sum nbits hb (fill key A0 fun i => (clientInt nbits (real i) (share i)).2.1)
    (fill key A1 fun i => (clientInt nbits (real i) (share i)).2.2)
    rest0 rest1 (keyed_fill _ hk ho0) (keyed_fill _ hk ho1) (by rw [fill_length]; exact hlen) ord ho junk raw
  rw [fill_length, fill_length, both_card hA0 hA1 g0 g1, both_sum hA0 hA1 g0 g1] at h
  have e1 : ∀ i, (intTerm (belowBits nbits) (fill key A0 fun i => (clientInt nbits (real i) (share i)).2.1)
      (fill key A1 fun i => (clientInt nbits (real i) (share i)).2.2) (key i)).toNat = (real i).toNat % 2 ^ nbits := by
    intro i
    unfold intTerm
    rw [firstOf_honest hA0 i (g0 i), firstOf_honest hA1 i (g1 i), ← mod_shl hb]
    simp only [Option.getD_some, clientInt]
    rw [← BitVec.xor_assoc, BitVec.xor_self, BitVec.zero_xor]
  have e2 : ∀ k ∈ bothKeys (belowBits nbits) (others A0) (others A1),
      (intTerm (belowBits nbits) (fill key A0 fun i => (clientInt nbits (real i) (share i)).2.1)
      (fill key A1 fun i => (clientInt nbits (real i) (share i)).2.2) k).toNat = (intTerm (belowBits nbits) (others A0) (others A1) k).toNat := by
    intro k hk
    unfold intTerm
    rw [firstOf_others A0 _ (not_key_of_both hA0 hk), firstOf_others A1 _ (not_key_of_both hA0 hk)]
  rw [Finset.sum_congr rfl fun i _ => e1 i, Finset.sum_congr rfl e2] at h
  exact h

/-- C68 for AND and OR: let one honest client hold the value that decides the operation (false for AND, true for OR). Whatever the others
send and whatever the other honest clients draw, all 64-bit words but one that this client may draw give the right answer. -/
theorem C68_xor (isAnd : Bool) {A0 A1 : List (Fin n ⊕ Bytes × U64)} (hA0 : Arrives key A0) (hA1 : Arrives key A1)
    (hk : ∀ i, (key i).length = pkLength) (ho0 : Keyed (others A0)) (ho1 : Keyed (others A1)) (hlen : A1.length < 2 ^ 32)
    (value : Fin n → Bool) (rand share : Fin n → U64) (i : Fin n) (hi : value i = !isAnd) :
    ∃ m bad, m ≤ (others A0).length ∧ m ≤ (others A1).length ∧
    ∀ (w : U64) (rest0 rest1 : Bytes) (ord : Map U64 → Map U64) (_ : IsOrder ord),
      Always (xorOpOp0 isAnd A0.length
          (encIntShares (fill key A0 fun j => (clientXor isAnd (value j) (Function.update rand i w j) (share j)).1) ++ rest0))
        (xorOpOp1 A1.length
          (encIntShares (fill key A1 fun j => (clientXor isAnd (value j) (Function.update rand i w j) (share j)).2) ++ rest1) ord)
        (verdict (n + m) A0.length (if w = bad then isAnd else !isAnd)) .noAns := by
  set T := bothKeys (fun _ => true) (others A0) (others A1) with hT
  set X := Finset.fold (fun x y : U64 => x ^^^ y) 0#64 (fun j => xorEncode isAnd (value j) (rand j)) (Finset.univ.erase i) with hX
  refine ⟨T.card, X ^^^ xorAgg (others A0) (others A1), (both_others_le A0 A1).1, (both_others_le A0 A1).2,
    fun w rest0 rest1 ord ho => ?_⟩
  set f0 : Fin n → U64 := fun j => (clientXor isAnd (value j) (Function.update rand i w j) (share j)).1 with hf0
  set f1 : Fin n → U64 := fun j => (clientXor isAnd (value j) (Function.update rand i w j) (share j)).2 with hf1
  have h := C37_xor_op isAnd (fill key A0 f0) (fill key A1 f1) rest0 rest1 (keyed_fill _ hk ho0) (keyed_fill _ hk ho1)
    (by rw [fill_length]; exact hlen) ord ho
  rw [fill_length, fill_length, both_card hA0 hA1 (fun _ => rfl) (fun _ => rfl)] at h
  obtain ⟨es, ed⟩ := both_split (ok := fun _ => true) hA0 hA1 (f0 := f0) (f1 := f1) (fun _ => rfl) (fun _ => rfl)
  have e : xorAgg (fill key A0 f0) (fill key A1 f1) = w ^^^ (X ^^^ xorAgg (others A0) (others A1)) := by
    have e1 : (fun j => intTerm (fun _ => true) (fill key A0 f0) (fill key A1 f1) (key j)) =
        Function.update (fun j => xorEncode isAnd (value j) (rand j)) i w := by
      funext j
      unfold intTerm
      rw [firstOf_honest hA0 j rfl, firstOf_honest hA1 j rfl]
      simp only [Option.getD_some, hf0, hf1, clientXor]
      rw [← BitVec.xor_assoc, BitVec.xor_self, BitVec.zero_xor]
      by_cases hj : j = i
      · subst hj
        rw [Function.update_self, Function.update_self, hi]
        cases isAnd <;> rfl
      · rw [Function.update_of_ne hj, Function.update_of_ne hj]
    have e2 : xorOver T (intTerm (fun _ => true) (fill key A0 f0) (fill key A1 f1)) = xorAgg (others A0) (others A1) := by
      refine xorOver_congr fun k hk => ?_
      unfold intTerm
      rw [firstOf_others A0 _ (not_key_of_both hA0 hk), firstOf_others A1 _ (not_key_of_both hA0 hk)]
    rw [xorAgg, es, xorOver_union ed, xorOver_image hA0.inj, e1, xorFin_update, ← hT, e2, BitVec.xor_assoc]
  rw [e] at h
  have hz : (w ^^^ (X ^^^ xorAgg (others A0) (others A1)) = 0#64) ↔ w = X ^^^ xorAgg (others A0) (others A1) := xor_zero_iff _ _
  convert h using 2
  by_cases hw : w = X ^^^ xorAgg (others A0) (others A1)
  · rw [if_pos hw]
    cases isAnd
    · simp [hz.2 hw]
    · simp [hz.2 hw]
  · rw [if_neg hw]
    cases isAnd
    · simp only [ne_eq, hz, hw]; rfl
    · simp only [hz, hw]; rfl

/-- The words at column `j` of the others. -/
theorem maxCol_fill (isMax : Bool) {B : ℕ} {A0 A1 : List (Fin n ⊕ Bytes × List U64)} (hA0 : Arrives key A0) (hA1 : Arrives key A1)
    (value : Fin n → ℕ) (rand share : Fin n → ℕ → U64) {j : ℕ} (hj : j ≤ B) :
    maxCol (fill key A0 fun i => (clientMax isMax B (value i) (rand i) (share i)).1)
      (fill key A1 fun i => (clientMax isMax B (value i) (rand i) (share i)).2) j =
    xorFin (fun i => if maxPos isMax B (value i) < j then 0#64 else rand i j) ^^^ maxCol (others A0) (others A1) j := by
  set f0 : Fin n → List U64 := fun i => (clientMax isMax B (value i) (rand i) (share i)).1 with hf0
  set f1 : Fin n → List U64 := fun i => (clientMax isMax B (value i) (rand i) (share i)).2 with hf1
  obtain ⟨es, ed⟩ := both_split (ok := fun _ => true) hA0 hA1 (f0 := f0) (f1 := f1) (fun _ => rfl) (fun _ => rfl)
  rw [maxCol, es, xorOver_union ed, xorOver_image hA0.inj]
  congr 1
  · congr 1
    funext i
    rw [firstOf_honest hA0 i rfl, firstOf_honest hA1 i rfl]
    simp only [Option.getD_some, hf0, hf1, clientMax]
    have e : (List.zipWith (· ^^^ ·) ((List.range (B + 1)).map (share i)) (maxEncode isMax B (value i) (rand i))).getD j 0#64 =
        share i j ^^^ (if maxPos isMax B (value i) < j then 0#64 else rand i j) := by
      rw [List.getD_eq_getElem _ _ (by simp [maxEncode]; omega), List.getElem_zipWith]
      simp [maxEncode]
    rw [e, range_getD, if_pos hj, ← BitVec.xor_assoc, BitVec.xor_self, BitVec.zero_xor]
  · refine xorOver_congr fun k hk => ?_
    rw [firstOf_others A0 _ (not_key_of_both hA0 hk), firstOf_others A1 _ (not_key_of_both hA0 hk)]

theorem rows_fill {B : ℕ} {A : List (Fin n ⊕ Bytes × List U64)} {f : Fin n → List U64} (hf : ∀ i, (f i).length = B + 1)
    (ho : RowsOk B (others A)) : RowsOk B (fill key A f) := by
  intro e he
  obtain ⟨a, ha, rfl⟩ := List.mem_map.1 he
  rcases a with i | e
  · exact hf i
  · exact ho e (mem_others.2 ha)

/-- C68 for MAX and MIN: if at least half of the submissions are matched, then whatever the others send and whatever the other draws are, all
64-bit words but one that an honest client may draw for its own position lead to an answer at least as large as its value (MIN: at most as
large); an answer beyond the values of all honest clients is one at which the others' words do not cancel. -/
theorem C68_max (isMax : Bool) {B : ℕ} {A0 A1 : List (Fin n ⊕ Bytes × List U64)} (hA0 : Arrives key A0) (hA1 : Arrives key A1)
    (hk : ∀ i, (key i).length = pkLength) (ho0 : Keyed (others A0)) (ho1 : Keyed (others A1)) (hr0 : RowsOk B (others A0))
    (hr1 : RowsOk B (others A1)) (hB : B + 1 < 2 ^ 32) (hs0 : A0.length * (B + 1) < 2 ^ 32) (hs1 : A1.length * (B + 1) < 2 ^ 32)
    (hhalf : A0.length ≤ 2 * (n + (bothKeys (fun _ => true) (others A0) (others A1)).card))
    (value : Fin n → ℕ) (hv : ∀ j, value j ≤ B) (rand share : Fin n → ℕ → U64) (i : Fin n) :
    ∃ bad, ∀ w, w ≠ bad → ∃ r, (if isMax then value i ≤ r else r ≤ value i) ∧
      ((∃ j, if isMax then r ≤ value j else value j ≤ r) ∨ maxCol (others A0) (others A1) (maxPos isMax B r) ≠ 0#64) ∧
    ∀ (rest0 rest1 : Bytes) (ord : Map (List U64) → Map (List U64)) (_ : IsOrder ord),
      let rand' := fun j => if j = i then Function.update (rand j) (maxPos isMax B (value i)) w else rand j
      Always (maxOpOp0 isMax B A0.length (encMaxShares (fill key A0 fun j => (clientMax isMax B (value j) (rand' j) (share j)).1) ++ rest0))
        (maxOpOp1 B A1.length (encMaxShares (fill key A1 fun j => (clientMax isMax B (value j) (rand' j) (share j)).2) ++ rest1) ord)
        (.ans r) .noAns := by
  set V := maxPos isMax B (value i) with hV
  have hVB : V ≤ B := by rw [hV, maxPos]; have := hv i; split <;> omega
  set X := Finset.fold (fun x y : U64 => x ^^^ y) 0#64 (fun j => if maxPos isMax B (value j) < V then 0#64 else rand j V) (Finset.univ.erase i)
  refine ⟨X ^^^ maxCol (others A0) (others A1) V, fun w hw => ?_⟩
  set rand' := fun j => if j = i then Function.update (rand j) V w else rand j with hrand
  set s0 := fill key A0 fun j => (clientMax isMax B (value j) (rand' j) (share j)).1 with hs0'
  set s1 := fill key A1 fun j => (clientMax isMax B (value j) (rand' j) (share j)).2 with hs1'
  have hcol : ∀ j ≤ B, maxCol s0 s1 j = xorFin (fun i => if maxPos isMax B (value i) < j then 0#64 else rand' i j) ^^^
      maxCol (others A0) (others A1) j := fun j hj => maxCol_fill isMax hA0 hA1 value rand' share hj
  have hne : maxCol s0 s1 V ≠ 0#64 := by
    rw [hcol V hVB]
    have e : (fun j => if maxPos isMax B (value j) < V then 0#64 else rand' j V) =
        Function.update (fun j => if maxPos isMax B (value j) < V then 0#64 else rand j V) i w := by
      funext j
      by_cases hj : j = i
      · subst hj
        rw [Function.update_self, if_neg (lt_irrefl _), hrand]
        simp
      · rw [Function.update_of_ne hj, hrand]
        simp [hj]
    rw [e, xorFin_update, BitVec.xor_assoc]
    exact fun h => hw ((xor_zero_iff _ _).1 h)
  -- the highest column that does not cancel
  obtain ⟨q, hqB, hVq, hq, hz⟩ : ∃ q ≤ B, V ≤ q ∧ maxCol s0 s1 q ≠ 0#64 ∧ ∀ i, q < i → i ≤ B → maxCol s0 s1 i = 0#64 := by
    classical
    have hP : ∃ d, d ≤ B ∧ maxCol s0 s1 (B - d) ≠ 0#64 := ⟨B - V, by omega, by rwa [show B - (B - V) = V by omega]⟩
    have hspec := Nat.find_spec hP
    refine ⟨B - Nat.find hP, by omega, ?_, hspec.2, fun i h1 h2 => ?_⟩
    · have := Nat.find_min' hP (m := B - V) ⟨by omega, by rwa [show B - (B - V) = V by omega]⟩
      omega
    · have := Nat.find_min hP (m := B - i) (by have := hspec.1; omega)
      by_contra hne
      exact this ⟨by omega, by rwa [show B - (B - i) = i by omega]⟩
  have hqr : maxPos isMax B (if isMax then q else B - q) = q := by
    cases isMax
    · simp [maxPos]; omega
    · simp [maxPos]
  refine ⟨if isMax then q else B - q, ?_, ?_, fun rest0 rest1 ord ho => ?_⟩
  · have := hv i
    cases isMax
    · simp [maxPos] at hV ⊢; omega
    · simp [maxPos] at hV ⊢; omega
  · rw [hqr]
    by_contra hno
    push Not at hno
    obtain ⟨h1, h2⟩ := hno
    refine hq ?_
    rw [hcol q hqB, h2, BitVec.xor_zero]
    have e : (fun i => if maxPos isMax B (value i) < q then 0#64 else rand' i q) = fun _ => 0#64 := by
      funext j
      rw [if_pos]
      have := h1 j
      have := hv j
      cases isMax
      · simp [maxPos] at h1 this ⊢; have := h1 j; omega
      · simp [maxPos] at h1 this ⊢; have := h1 j; omega
    rw [e]
    unfold xorFin
    rw [Finset.fold_const (op := fun x y : U64 => x ^^^ y) 0#64 (by simp)]
    split <;> rfl
  · have := C38_max_op isMax B s0 s1 rest0 rest1 (keyed_fill _ hk ho0) (keyed_fill _ hk ho1)
      (rows_fill (fun j => by simp [clientMax]) hr0) (rows_fill (fun j => by simp [clientMax, maxEncode]) hr1) hB
      (by rw [hs0', fill_length]; exact hs0) (by rw [hs1', fill_length]; exact hs1) ord ho
      (by rw [hs0', hs1', both_card hA0 hA1 (fun _ => rfl) (fun _ => rfl), fill_length]; omega) q hqB hq hz
    rw [hs0', hs1', fill_length, fill_length] at this
    exact this

/-! ## Concrete cases -/

/-- The key of the honest client and a key of another, for the examples. -/
def keyH : Fin 1 → Bytes := fun _ => List.replicate 32 1#8
def keyO : Bytes := List.replicate 32 2#8

theorem arrives_one {α : Type} (v : α) : Arrives keyH [Sum.inr (keyO, v), Sum.inl 0] :=
  ⟨fun i j _ => Subsingleton.elim i j, fun i => by rw [Subsingleton.elim i 0]; simp, fun e he i => by
    simp only [List.mem_cons, Sum.inr.injEq, reduceCtorEq, List.not_mem_nil, or_false] at he
    subst he
    show keyO ≠ List.replicate 32 1#8
    decide⟩

/-- Non-vacuity: one honest client and one other who reaches both servers first. -/
example : ∃ A0 A1 : List (Fin 1 ⊕ Bytes × Bool), Arrives keyH A0 ∧ Arrives keyH A1 ∧ (∀ i, (keyH i).length = pkLength) ∧ Keyed (others A0) ∧
    Keyed (others A1) ∧ A1.length < 2 ^ 32 ∧ (others A0).length = 1 :=
  ⟨_, _, arrives_one true, arrives_one false, fun _ => by simp [keyH, pkLength], by intro e he; simp [others] at he; subst he; simp [keyO, pkLength],
    by intro e he; simp [others] at he; subst he; simp [keyO, pkLength], by simp, rfl⟩

example : ∃ A0 A1 : List (Fin 1 ⊕ Bytes × U64), Arrives keyH A0 ∧ Arrives keyH A1 ∧ (∀ i, (keyH i).length = pkLength) ∧ Keyed (others A0) ∧
    Keyed (others A1) ∧ A1.length < 2 ^ 32 ∧ bothKeys (belowBits 4) (others A0) (others A1) = {keyO} :=
  ⟨_, _, arrives_one 3#64, arrives_one 9#64, fun _ => by simp [keyH, pkLength], by intro e he; simp [others] at he; subst he; simp [keyO, pkLength],
    by intro e he; simp [others] at he; subst he; simp [keyO, pkLength], by simp, by decide⟩

example : ∃ A0 A1 : List (Fin 1 ⊕ Bytes × List U64), Arrives keyH A0 ∧ Arrives keyH A1 ∧ (∀ i, (keyH i).length = pkLength) ∧ Keyed (others A0) ∧
    Keyed (others A1) ∧ RowsOk 1 (others A0) ∧ RowsOk 1 (others A1) ∧ A0.length * (1 + 1) < 2 ^ 32 ∧
    A0.length ≤ 2 * (1 + (bothKeys (fun _ => true) (others A0) (others A1)).card) :=
  ⟨_, _, arrives_one [3#64, 4#64], arrives_one [3#64, 5#64], fun _ => by simp [keyH, pkLength],
    by intro e he; simp [others] at he; subst he; simp [keyO, pkLength],
    by intro e he; simp [others] at he; subst he; simp [keyO, pkLength], by intro e he; simp [others] at he; subst he; rfl,
    by intro e he; simp [others] at he; subst he; rfl, by simp, by simp⟩

/-- C68 needs that no one else uses an honest client's key. Nothing ties a key to a client: a submission under the same key that arrives first at
both servers replaces the honest one, and the answer does not depend on the honest value at all. -/
theorem C68_false_stolen_key (k : Bytes) (hk : k.length = pkLength) (b0 b1 : Bool) (ord : Map Bool → Map Bool) (ho : IsOrder ord) (junk : ℕ → Bool)
    (raw : ℕ → U64) (real share : Bool) :
    Always (bitSumOp0 2 (encBitShares [(k, b0), (k, (clientBit real share).1)]) junk raw)
      (bitSumOp1 2 (encBitShares [(k, b1), (k, (clientBit real share).2)]) ord) (.ans (BitVec.ofNat 64 (b0 ^^ b1).toNat)) .noAns := by
  have h := C35_bit_sum [(k, b0), (k, (clientBit real share).1)] [(k, b1), (k, (clientBit real share).2)] [] []
    (by intro e he; simp at he; rcases he with rfl | rfl <;> exact hk) (by intro e he; simp at he; rcases he with rfl | rfl <;> exact hk)
    (by simp) ord ho junk raw
  have e0 : ∀ (b c : Bool), firstOf (fun _ => true) [(k, b), (k, c)] k = some b := by
    intro b c; rw [firstOf_cons, if_pos ⟨rfl, rfl⟩]
  have eb : bothKeys (fun _ => true) [(k, b0), (k, (clientBit real share).1)] [(k, b1), (k, (clientBit real share).2)] = {k} := by
    ext q
    rw [mem_both, Finset.mem_singleton]
    refine ⟨fun h => ?_, fun h => by subst h; rw [e0, e0]; exact ⟨rfl, rfl⟩⟩
    obtain ⟨v, hv⟩ := Option.isSome_iff_exists.1 h.1
    have := firstOf_mem hv
    simp at this
    rcases this with ⟨h, -⟩ | ⟨h, -⟩ <;> exact h
  have ec : bitCount [(k, b0), (k, (clientBit real share).1)] [(k, b1), (k, (clientBit real share).2)] = (b0 ^^ b1).toNat := by
    unfold bitCount
    rw [eb, Finset.filter_singleton, e0, e0]
    cases b0 <;> cases b1 <;> rfl
  rw [eb, ec] at h
  simpa [verdict] using h

end Verif

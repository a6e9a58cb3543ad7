import Verif.LemmasInvalid

/-!
# C80: the debugging clients and the servers

The answer of the servers to a batch of the debugging clients is the one the debugging client prints, except that the client program reads memory it
has released.
-/

namespace Verif

/-! ## The keys -/

theorem misspell_ne (a b : BitVec 128) : misspell (pubKeyToHex a) ≠ pubKeyToHex b := by
  intro h
  have : 0x71#8 ∈ pubKeyToHex b := by rw [← h]; exact List.mem_cons_self
  have := C54_charset b _ this
  unfold IsHex at this
  revert this
  decide

/-- The keys drawn by `random_block` are distinct. -/
theorem C80_keys_distinct {g : Prg} (hg : Function.Injective g.aes) {n : ℕ} (hn : n ≤ 2 ^ 64) :
    ∀ i < n, ∀ j < n, pubKeyToHex ((g.blocks n).1.getD i 0#128) = pubKeyToHex ((g.blocks n).1.getD j 0#128) → i = j := by
  intro i hi j hj h
  have h := C54_injective h
  have e : ∀ l < n, (g.blocks n).1.getD l 0#128 = g.blk (g.pos + l) := by
    intro l hl
    simp only [Prg.blocks]
    rw [List.getD_eq_getElem _ _ (by simpa using hl)]
    simp
  rw [e i hi, e j hj] at h
  have h := congrArg BitVec.toNat (hg h)
  simp only [BitVec.toNat_setWidth, BitVec.toNat_ofNat] at h
  omega

/-! ## Undefined behaviour -/

theorem badSubs_none {α : Type} {key : ℕ → Option Bytes} {sh : ℕ → α} {n i : ℕ} (hi : i < n) (h : key i = none) : badSubs key sh n = none := by
  unfold badSubs
  have : ∀ l : List ℕ, i ∈ l → optAll (l.map fun i => (key i).map fun k => (k, sh i)) = none := by
    intro l
    induction l with
    | nil => intro h; cases h
    | cons j l ih =>
      intro hm
      rw [List.map_cons]
      by_cases e : j = i
      · subst e
        rw [h]; rfl
      · have := ih ((List.mem_cons.1 hm).resolve_left fun h => e h.symm)
        cases hk : (key j).map fun k => (k, sh j) with
        | none => rfl
        | some e => show (optAll _).map _ = none; rw [this]; rfl
  exact this _ (List.mem_range.2 hi)

/-- C80 is false as it stands: from three submissions on (five for INT_SUM) every debugging client is undefined. -/
theorem C80_false_undefined (g : Prg) (mx : BitVec 32) (nbits : ℕ) (b : Bool) (n : ℕ) :
    (3 ≤ n → bitSumInvalid .real n mx g = none ∧ xorInvalid b .real n mx g = none ∧ maxInvalid b .real n g = none) ∧
      (5 ≤ n → intSumInvalid nbits .real n mx g = none) := by
  refine ⟨fun h => ⟨?_, ?_, ?_⟩, fun h => ?_⟩
  · unfold bitSumInvalid
    dsimp only
    rw [badSubs_none (i := 2) (by omega) rfl]; rfl
  · unfold xorInvalid
    dsimp only
    rw [badSubs_none (i := 2) (by omega) rfl]; rfl
  · unfold maxInvalid
    dsimp only
    rw [badSubs_none (i := 2) (by omega) rfl]; rfl
  · unfold intSumInvalid
    dsimp only
    rw [badSubs_none (i := 4) (by omega) rfl]; rfl

/-! ## Which clients count -/

/-- The clients not marked `(invalid)` by `bit_sum_invalid`, `xor_op_invalid`, `max_op_invalid` (client.cpp:172-175, 454-457, 653-656). -/
def countsA (i : ℕ) : Bool := !(i == 0 || i == 2 || i == 4)

/-- The clients not marked `(invalid)` by `int_sum_invalid` (client.cpp:300-305). -/
def countsB (i : ℕ) : Bool := !(i ≤ 2 || i == 4 || i == 6)

/-- The numbers of the clients that count. -/
def valid (counts : ℕ → Bool) (n : ℕ) : List ℕ := (List.range n).filter counts

theorem valid_tail (counts : ℕ → Bool) (m d : ℕ) (h : ∀ i, m ≤ i → counts i = true) : (valid counts (m + d)).length = (valid counts m).length + d := by
  induction d with
  | zero => rfl
  | succ d ih =>
    unfold valid at ih ⊢
    rw [← Nat.add_assoc, List.range_succ, List.filter_append, List.length_append, ih]
    simp [h (m + d) (by omega)]
    omega

/-- The servers answer unless there are 1, 3 or 5 submissions. -/
theorem C80_threshold {α : Type} (n : ℕ) (a : α) :
    verdict (valid countsA n).length n a = if n = 1 ∨ n = 3 ∨ n = 5 then .invalid else .ans a := by
  unfold verdict
  have hs : n < 6 ∨ 6 ≤ n := by omega
  rcases hs with hs | hs
  · interval_cases n <;> simp [valid, countsA, List.range_succ]
  · obtain ⟨d, rfl⟩ := Nat.exists_eq_add_of_le hs
    have : (valid countsA 6).length = 3 := by decide
    rw [valid_tail _ _ _ (by intro i hi; simp [countsA]; omega), this, if_neg (by omega), if_neg (by omega)]

/-- INT_SUM: they answer if there is no submission or at least ten. -/
theorem C80_threshold_int {α : Type} (n : ℕ) (a : α) :
    verdict (valid countsB n).length n a = if n = 0 ∨ 10 ≤ n then .ans a else .invalid := by
  unfold verdict
  have hs : n < 10 ∨ 10 ≤ n := by omega
  rcases hs with hs | hs
  · interval_cases n <;> simp [valid, countsB, List.range_succ]
  · obtain ⟨d, rfl⟩ := Nat.exists_eq_add_of_le hs
    have : (valid countsB 10).length = 5 := by decide
    rw [valid_tail _ _ _ (by intro i hi; simp [countsB]; omega), this, if_neg (by omega), if_pos (by omega)]

/-- What the comments have in mind is harmless. -/
theorem C80_meant (key : ℕ → Bytes) (hl : ∀ i, (key i).length = pkLength) (n : ℕ) {good : ℕ → Bool} (s : Spoil) (h0 : 0 < s.dup0) (h1 : 0 < s.dup1)
    (g0 : good (s.dup0 - 1) = true) (g1 : good (s.dup1 - 1) = true) : Harmless (.meant key) s key n good := by
  refine ⟨?_, fun hn _ _ => ⟨s.dup0 - 1, by omega, g0, rfl⟩⟩
  rintro i (rfl | rfl) _
  · exact ⟨_, rfl, hl _, .inl ⟨_, by omega, g0, rfl⟩⟩
  · exact ⟨_, rfl, hl _, .inl ⟨_, by omega, g1, rfl⟩⟩

/-! ## BIT_SUM -/

theorem fold_valid {σ : Type} {counts : ℕ → Bool} {P : ℕ → Prop} [DecidablePred P] (h : ∀ i, counts i = false ↔ P i) (f : σ → ℕ → σ) (n : ℕ) (s : σ) :
    (List.range n).foldl (fun s i => if P i then s else f s i) s = (valid counts n).foldl f s := by
  unfold valid
  generalize List.range n = l
  induction l generalizing s with
  | nil => rfl
  | cons i l ih =>
    rw [List.foldl_cons, ih]
    cases hc : counts i
    · rw [if_pos ((h i).1 hc), List.filter_cons_of_neg (by simp [hc])]
    · rw [if_neg (fun hp => by simp [(h i).2 hp] at hc), List.filter_cons_of_pos hc, List.foldl_cons]

theorem countsA_iff (i : ℕ) : countsA i = true ↔ i ≠ 0 ∧ i ≠ 2 ∧ i ≠ 4 := by
  simp [countsA, and_assoc]

theorem countsA_false (i : ℕ) : countsA i = false ↔ i = 0 ∨ i = 2 ∨ i = 4 := by
  rw [← Bool.not_eq_true, countsA_iff]; omega

theorem countsB_iff (i : ℕ) : countsB i = true ↔ 2 < i ∧ i ≠ 4 ∧ i ≠ 6 := by
  simp [countsB, and_assoc]

theorem countsB_false (i : ℕ) : countsB i = false ↔ i ≤ 2 ∨ i = 4 ∨ i = 6 := by
  rw [← Bool.not_eq_true, countsB_iff]; omega

theorem valid_le (counts : ℕ → Bool) (n : ℕ) : (valid counts n).length ≤ n := by
  have := List.length_filter_le counts (List.range n)
  rwa [List.length_range] at this

/-- C80 for BIT_SUM, provided that what the client finds in the released memory is harmless: the program is defined, and the servers count the ones
of the clients not marked invalid, which is what the program prints (if they answer at all, see `C80_threshold`). -/
theorem C80_bit_sum_partial (c : StoreCfg) {g0 g1 : StoreRng} (hg : GoodRng intModulus g0) {nbits : ℕ} (coef : ℕ → ℤ) {n : ℕ} (hn : n < 2 ^ 32)
    (mx : BitVec 32) {g : Prg} (ha : Function.Injective g.aes) {stale : Stale} (hs : Harmless stale spoilA (bitDraws n g).1 n countsA) :
    ∃ out, bitSumInvalid stale n mx g = some out ∧
      out.2.2.toNat = (valid countsA n).countP (bitDraws n g).2.1 ∧
      ∀ e0 e1 s0 s1, Ready e0 e1 s0 s1 out.1 out.2.1 →
        ∃ s0' s1', Always (iteration false c g0 nbits coef e0 s0) (iteration true c g1 nbits coef e1 s1)
          (.word (verdict (valid countsA n).length n (BitVec.ofNat 64 out.2.2.toNat)), s0') (.word .noAns, s1') ∧ ∃ y, InStep y s0' s1' := by
  set key := (bitDraws n g).1 with hkey
  set real := (bitDraws n g).2.1 with hreal
  set sh := (bitDraws n g).2.2 with hsh
  obtain ⟨a, b, ea, eb, la, lb, ka, kb, -, -, hnd, hf, hbk⟩ := spoiled_keys (ok := fun _ : Bool => true) (sh0 := sh) (sh1 := fun i => real i ^^ sh i) (key := key)
    (good := countsA) (fun i => C54_length _) (C80_keys_distinct ha (by omega)) (fun i => misspell_ne _ _) hs (by decide)
    (by intro i _; rw [countsA_iff]; simp [spoilA])
  have hfold : (List.range n).foldl (fun s i => if i = 0 ∨ i = 2 ∨ i = 4 then s else s + if real i then 1#32 else 0#32) 0#32 =
      (valid countsA n).foldl (fun s i => s + if real i then 1#32 else 0#32) 0#32 := by
    exact fold_valid countsA_false _ n _
  have key32 : ∀ (l : List ℕ) (s : BitVec 32), s.toNat + l.length < 2 ^ 32 →
      (l.foldl (fun s i => s + if real i then 1#32 else 0#32) s).toNat = s.toNat + l.countP real := by
    intro l
    induction l with
    | nil => intro s _; simp
    | cons r l ih =>
      intro s hs
      rw [List.length_cons] at hs
      have e : (s + if real r then 1#32 else 0#32).toNat = s.toNat + if real r then 1 else 0 := by
        cases real r
        · simp
        · simp only [if_true, BitVec.toNat_add, BitVec.toNat_ofNat]; omega
      rw [List.foldl_cons, ih _ (by rw [e]; split <;> omega), e, List.countP_cons]
      cases hr : real r <;> simp; omega
  have hvl := valid_le countsA n
  have hprint : ((valid countsA n).foldl (fun s i => s + if real i then 1#32 else 0#32) 0#32).toNat = (valid countsA n).countP real := by
    have := key32 (valid countsA n) 0#32 (by simp; omega)
    simpa using this
  have hcnt : bitCount a b = (valid countsA n).countP real := by
    unfold bitCount
    rw [Finset.card_filter, hbk, List.sum_toFinset _ hnd, List.map_map]
    have e : (List.filter countsA (List.range n)).map ((fun k => if firstOf (fun _ => true) a k ≠ firstOf (fun _ => true) b k then 1 else 0) ∘ key) =
        (valid countsA n).map fun i => if real i then 1 else 0 := by
      refine List.map_congr_left fun i hi => ?_
      rw [Function.comp_apply, (hf i hi).1, (hf i hi).2]
      cases sh i <;> cases real i <;> simp
    rw [e]
    induction valid countsA n with
    | nil => rfl
    | cons i l ih => cases hr : real i <;> simp [hr, ih, Nat.add_comm]
  have hcard : (bothKeys (fun _ => true) a b).card = (valid countsA n).length := by
    rw [hbk, List.toFinset_card_of_nodup hnd, List.length_map]; rfl
  refine ⟨(encInit (initMsg 1#32 n mx) ++ bitBytes a, encInit (initMsg 1#32 n mx) ++ bitBytes b,
      (valid countsA n).foldl (fun s i => s + if real i then 1#32 else 0#32) 0#32), ?_, hprint, ?_⟩
  · unfold bitSumInvalid
    simp only [← hkey, ← hreal, ← hsh, ea, eb, Option.bind_some, Option.map_some, hfold]
  · intro e0 e1 s0 s1 h
    obtain ⟨y, hy⟩ := h.step
    obtain ⟨r, s0', s1', hP, hA, hI⟩ := iteration_pair c (g1 := g1) hg (nbits := nbits) coef (b := .bitSum a b) (e0 := e0) (e1 := e1)
      ⟨[], [], by rw [h.stream0, la, List.append_nil]; exact opens_init _ hn _ _, by rw [h.stream1, lb, List.append_nil]; exact opens_init _ hn _ _⟩
      ⟨ka, kb⟩ h.ord h.draw hy
    have hA : r = _ := hA
    rw [hcard, la, hcnt, ← hprint] at hA
    rw [hA] at hP
    exact ⟨s0', s1', hP.always, _, hI⟩

/-! ## INT_SUM -/

/-- The clients of `int_sum_invalid` whose submissions the servers accept: those whose keys match and whose shares are in range. Clients 0 and 1 are
among them if the words drawn for them happen to be in range. -/
def acceptedB (nbits : ℕ) (r s : ℕ → U64) (i : ℕ) : Bool :=
  !(i == 2 || i == 4 || i == 6) && (i != 0 || decide ((r 0).toNat < 2 ^ nbits)) && (i != 1 || decide ((s 1).toNat < 2 ^ nbits))

theorem acceptedB_iff (nbits : ℕ) (r s : ℕ → U64) (i : ℕ) : acceptedB nbits r s i = true ↔
    i ≠ 2 ∧ i ≠ 4 ∧ i ≠ 6 ∧ (i = 0 → (r 0).toNat < 2 ^ nbits) ∧ (i = 1 → (s 1).toNat < 2 ^ nbits) := by
  simp only [acceptedB, Bool.and_eq_true, Bool.not_eq_true', Bool.or_eq_false_iff, beq_eq_false_iff_ne, Bool.or_eq_true, bne_iff_ne, decide_eq_true_eq]
  tauto

/-- If the words drawn for clients 0 and 1 are out of range, the clients accepted are those not marked invalid. -/
theorem acceptedB_eq {nbits : ℕ} {r s : ℕ → U64} (h0 : 2 ^ nbits ≤ (r 0).toNat) (h1 : 2 ^ nbits ≤ (s 1).toNat) : acceptedB nbits r s = countsB := by
  funext i
  rw [Bool.eq_iff_iff, acceptedB_iff, countsB_iff]
  constructor
  · rintro ⟨a, b, c, d, e⟩
    refine ⟨?_, b, c⟩
    by_contra h
    have : i = 0 ∨ i = 1 := by omega
    rcases this with rfl | rfl
    · have := d rfl; omega
    · have := e rfl; omega
  · rintro ⟨a, b, c⟩
    exact ⟨by omega, b, c, by omega, by omega⟩

theorem foldl_add_words (f : ℕ → U64) : ∀ (l : List ℕ) (s : U64), l.foldl (fun s i => s + f i) s = s + BitVec.ofNat 64 (l.map fun i => (f i).toNat).sum := by
  intro l
  induction l with
  | nil => intro s; simp
  | cons r l ih =>
    intro s
    rw [List.foldl_cons, ih, List.map_cons, List.sum_cons, BitVec.ofNat_add, ← BitVec.add_assoc]
    simp

/-- C80 for INT_SUM, provided that what the client finds in the released memory is harmless: the servers add the values of the clients they accept;
the program prints the sum over the clients not marked invalid. -/
theorem C80_int_sum_partial (c : StoreCfg) {g0 g1 : StoreRng} (hg : GoodRng intModulus g0) {nbits : ℕ} (hb : nbits ≤ 63) (coef : ℕ → ℤ) {n : ℕ}
    (hn : n < 2 ^ 32) (mx : BitVec 32) {g : Prg} (ha : Function.Injective g.aes) {stale : Stale}
    (hs : Harmless stale spoilB (intDraws n g).1 n (acceptedB nbits (intDraws n g).2.1 (intDraws n g).2.2)) :
    ∃ out, intSumInvalid nbits stale n mx g = some out ∧
      out.2.2 = BitVec.ofNat 64 ((valid countsB n).map fun i => (intReal nbits (intDraws n g).2.1 i).toNat).sum ∧
      ∀ e0 e1 s0 s1, Ready e0 e1 s0 s1 out.1 out.2.1 →
        ∃ s0' s1', Always (iteration false c g0 nbits coef e0 s0) (iteration true c g1 nbits coef e1 s1)
          (.word (verdict (valid (acceptedB nbits (intDraws n g).2.1 (intDraws n g).2.2) n).length n
            (BitVec.ofNat 64 ((valid (acceptedB nbits (intDraws n g).2.1 (intDraws n g).2.2) n).map fun i => (intReal nbits (intDraws n g).2.1 i).toNat).sum)),
            s0') (.word .noAns, s1') ∧ ∃ y, InStep y s0' s1' := by
  set key := (intDraws n g).1 with hkey
  set w := (intDraws n g).2.1 with hw
  set z := (intDraws n g).2.2 with hz
  have hmod : ∀ a : U64, (a % (1#64 <<< nbits)).toNat = a.toNat % 2 ^ nbits := mod_shl (by omega)
  have hR : ∀ i, (intReal nbits w i).toNat < 2 ^ nbits ↔ (i = 0 → (w 0).toNat < 2 ^ nbits) := by
    intro i
    unfold intReal
    split
    · next h => rw [hmod]; exact ⟨fun _ h' => absurd h' h, fun _ => Nat.mod_lt _ (by positivity)⟩
    · next h => rw [not_ne_iff] at h; subst h; simp
  have hS : ∀ i, (intShare0 nbits z i).toNat < 2 ^ nbits ↔ (i = 1 → (z 1).toNat < 2 ^ nbits) := by
    intro i
    unfold intShare0
    split
    · next h => rw [hmod]; exact ⟨fun _ h' => absurd h' h, fun _ => Nat.mod_lt _ (by positivity)⟩
    · next h => rw [not_ne_iff] at h; subst h; simp
  have hX : ∀ i, (intShare0 nbits z i).toNat < 2 ^ nbits →
      ((intReal nbits w i ^^^ intShare0 nbits z i).toNat < 2 ^ nbits ↔ (intReal nbits w i).toNat < 2 ^ nbits) := by
    intro i h
    constructor
    · intro h'
      have := Nat.xor_lt_two_pow h' h
      rwa [← BitVec.toNat_xor, BitVec.xor_assoc, BitVec.xor_self, BitVec.xor_zero] at this
    · intro h'
      rw [BitVec.toNat_xor]
      exact Nat.xor_lt_two_pow h' h
  obtain ⟨a, b, ea, eb, la, lb, ka, kb, -, -, hnd, hf, hbk⟩ := spoiled_keys (ok := belowBits nbits) (sh0 := intShare0 nbits z)
    (sh1 := fun i => intReal nbits w i ^^^ intShare0 nbits z i) (key := key)
    (good := acceptedB nbits w z) (fun i => C54_length _) (C80_keys_distinct ha (by omega)) (fun i => misspell_ne _ _) hs (by decide)
    (by
      intro i _
      rw [acceptedB_iff, belowBits, belowBits, decide_eq_true_eq, decide_eq_true_eq]
      show _ ↔ i ≠ 2 ∧ i ≠ 4 ∧ i ≠ 6 ∧ _
      constructor
      · rintro ⟨a, b, c, d, e⟩
        have := (hS i).2 e
        exact ⟨a, b, c, this, (hX i this).2 ((hR i).2 d)⟩
      · rintro ⟨a, b, c, d, e⟩
        exact ⟨a, b, c, (hR i).1 ((hX i d).1 e), (hS i).1 d⟩)
  have hfold : (List.range n).foldl (fun s i => if i ≤ 2 ∨ i = 4 ∨ i = 6 then s else s + intReal nbits w i) 0#64 =
      BitVec.ofNat 64 ((valid countsB n).map fun i => (intReal nbits w i).toNat).sum := by
    rw [fold_valid countsB_false, foldl_add_words, BitVec.zero_add]
  have hsum : ∑ k ∈ bothKeys (belowBits nbits) a b, (intTerm (belowBits nbits) a b k).toNat =
      ((valid (acceptedB nbits w z) n).map fun i => (intReal nbits w i).toNat).sum := by
    rw [hbk, List.sum_toFinset _ hnd, List.map_map]
    congr 1
    refine List.map_congr_left fun i hi => ?_
    rw [Function.comp_apply, intTerm, (hf i hi).1, (hf i hi).2, Option.getD_some, Option.getD_some, BitVec.xor_comm (intReal nbits w i), ← BitVec.xor_assoc,
      BitVec.xor_self, BitVec.zero_xor]
  have hcard : (bothKeys (belowBits nbits) a b).card = (valid (acceptedB nbits w z) n).length := by
    rw [hbk, List.toFinset_card_of_nodup hnd, List.length_map]; rfl
  refine ⟨(encInit (initMsg 2#32 n mx) ++ intBytes a, encInit (initMsg 2#32 n mx) ++ intBytes b,
      BitVec.ofNat 64 ((valid countsB n).map fun i => (intReal nbits w i).toNat).sum), ?_, rfl, ?_⟩
  · unfold intSumInvalid
    simp only [← hkey, ← hw, ← hz, ea, eb, Option.bind_some, Option.map_some, hfold]
  · intro e0 e1 s0 s1 h
    obtain ⟨y, hy⟩ := h.step
    obtain ⟨r, s0', s1', hP, hA, hI⟩ := iteration_pair c (g1 := g1) hg (nbits := nbits) coef (b := .intSum a b) (e0 := e0) (e1 := e1)
      ⟨[], [], by rw [h.stream0, la, List.append_nil]; exact opens_init _ hn _ _, by rw [h.stream1, lb, List.append_nil]; exact opens_init _ hn _ _⟩
      ⟨ka, kb, by omega⟩ h.ord h.draw hy
    have hA : r = _ := hA
    rw [hcard, la, hsum] at hA
    rw [hA] at hP
    exact ⟨s0', s1', hP.always, _, hI⟩

/-! ## AND and OR -/

/-- The words of the clients that count and have the deciding value. -/
def decidingValid (isAnd : Bool) (v : ℕ → Bool) (w : ℕ → U64) (n : ℕ) : List U64 := ((valid countsA n).filter fun i => v i != isAnd).map w

/-- C80 for AND and OR, provided that what the client finds in the released memory is harmless: the program prints the conjunction or disjunction of
the values of the clients not marked invalid; if the servers answer, they answer with this, unless the words of the clients with the deciding value XOR
to zero. -/
theorem C80_xor_partial (c : StoreCfg) {g0 g1 : StoreRng} (hg : GoodRng intModulus g0) {nbits : ℕ} (coef : ℕ → ℤ) (isAnd : Bool) {n : ℕ} (hn : n < 2 ^ 32)
    (mx : BitVec 32) {g : Prg} (ha : Function.Injective g.aes) {stale : Stale} (hs : Harmless stale spoilA (xorDraws n g).1 n countsA) :
    ∃ out, xorInvalid isAnd stale n mx g = some out ∧
      out.2.2 = (if isAnd then (valid countsA n).all (xorDraws n g).2.1 else (valid countsA n).any (xorDraws n g).2.1) ∧
      ∀ e0 e1 s0 s1, Ready e0 e1 s0 s1 out.1 out.2.1 →
        ∃ r s0' s1', Always (iteration false c g0 nbits coef e0 s0) (iteration true c g1 nbits coef e1 s1)
          (.flag (verdict (valid countsA n).length n r), s0') (.flag .noAns, s1') ∧ (∃ y, InStep y s0' s1') ∧
          ((∀ i ∈ valid countsA n, (xorDraws n g).2.1 i = isAnd) → r = out.2.2) ∧
          ((∃ i ∈ valid countsA n, (xorDraws n g).2.1 i ≠ isAnd) →
            (r = out.2.2 ↔ xorAll (decidingValid isAnd (xorDraws n g).2.1 (xorDraws n g).2.2.1 n) ≠ 0#64)) := by
  set key := (xorDraws n g).1 with hkey
  set v := (xorDraws n g).2.1 with hv
  set w := (xorDraws n g).2.2.1 with hw
  set sh := (xorDraws n g).2.2.2 with hsh
  obtain ⟨a, b, ea, eb, la, lb, ka, kb, -, -, hnd, hf, hbk⟩ := spoiled_keys (ok := fun _ : U64 => true) (sh0 := sh)
    (sh1 := fun i => xorWord isAnd v w i ^^^ sh i) (key := key)
    (good := countsA) (fun i => C54_length _) (C80_keys_distinct ha (by omega)) (fun i => misspell_ne _ _) hs (by decide)
    (by intro i _; rw [countsA_iff]; simp [spoilA])
  have hfold : (List.range n).foldl (fun s i => if i = 0 ∨ i = 2 ∨ i = 4 then s else if isAnd then s && v i else s || v i) isAnd =
      if isAnd then (valid countsA n).all v else (valid countsA n).any v := by
    rw [fold_valid countsA_false (fun s i => if isAnd then s && v i else s || v i)]
    have key : ∀ (l : List ℕ) (s : Bool), l.foldl (fun s i => if isAnd then s && v i else s || v i) s =
        if isAnd then s && l.all v else s || l.any v := by
      intro l
      induction l with
      | nil => intro s; cases isAnd <;> simp
      | cons r l ih => intro s; rw [List.foldl_cons, ih]; cases isAnd <;> simp [Bool.and_assoc, Bool.or_assoc]
    rw [key]
    cases isAnd <;> simp
  have hagg : xorAgg a b = xorAll (decidingValid isAnd v w n) := by
    unfold xorAgg decidingValid
    rw [hbk, xorOver_list _ hnd, List.map_map]
    change xorAll ((valid countsA n).map _) = _
    rw [← xorAll_filter]
    congr 1
    refine List.map_congr_left fun i hi => ?_
    rw [Function.comp_apply, intTerm, (hf i hi).1, (hf i hi).2, Option.getD_some, Option.getD_some, BitVec.xor_comm (xorWord isAnd v w i), ← BitVec.xor_assoc,
      BitVec.xor_self, BitVec.zero_xor]
    unfold xorWord
    cases isAnd <;> cases v i <;> simp
  have hcard : (bothKeys (fun _ => true) a b).card = (valid countsA n).length := by
    rw [hbk, List.toFinset_card_of_nodup hnd, List.length_map]; rfl
  refine ⟨(encInit (initMsg (if isAnd then 3#32 else 4#32) n mx) ++ intBytes a, encInit (initMsg (if isAnd then 3#32 else 4#32) n mx) ++ intBytes b,
      if isAnd then (valid countsA n).all v else (valid countsA n).any v), ?_, rfl, ?_⟩
  · unfold xorInvalid
    simp only [← hkey, ← hv, ← hw, ← hsh, ea, eb, Option.bind_some, Option.map_some, hfold]
  · intro e0 e1 s0 s1 h
    obtain ⟨y, hy⟩ := h.step
    obtain ⟨r, s0', s1', hP, hA, hI⟩ := iteration_pair c (g1 := g1) hg (nbits := nbits) coef (b := .xor isAnd a b) (e0 := e0) (e1 := e1)
      ⟨[], [], by rw [h.stream0, la, List.append_nil]; exact opens_init _ hn _ _, by rw [h.stream1, lb, List.append_nil]; exact opens_init _ hn _ _⟩
      ⟨ka, kb⟩ h.ord h.draw hy
    have hA : r = _ := hA
    rw [hcard, la, hagg] at hA
    rw [hA] at hP
    refine ⟨_, s0', s1', hP.always, ⟨_, hI⟩, ?_, ?_⟩
    · intro hall
      have e : decidingValid isAnd v w n = [] := by
        unfold decidingValid
        rw [List.map_eq_nil_iff, List.filter_eq_nil_iff]
        intro i hi
        simp [hall i hi]
      rw [e]
      cases isAnd
      · simp [xorAll]; exact hall
      · simp [xorAll]; exact hall
    · rintro ⟨i, hi, hne⟩
      generalize xorAll (decidingValid isAnd v w n) = x
      cases isAnd
      · have : (valid countsA n).any v = true := List.any_eq_true.2 ⟨i, hi, by simpa using hne⟩
        simp [this]
      · have : (valid countsA n).all v = false := List.all_eq_false.2 ⟨i, hi, by simpa using hne⟩
        simp [this]

/-! ## MAX and MIN -/

theorem maxRows_length (isMax : Bool) (B : ℕ) : ∀ (ws : List U64) (g : Prg), (maxRows isMax B ws g).length = ws.length
  | [], _ => rfl
  | _ :: ws, g => by
    rw [maxRows, List.length_cons, List.length_cons, maxRows_length isMax B ws]

/-- Each row consists of shares of the encoded value. -/
theorem maxRows_row (isMax : Bool) (B : ℕ) : ∀ (ws : List U64) (g : Prg), ∀ r ∈ maxRows isMax B ws g, r.value ≤ B ∧ r.share0.length = B + 1 ∧
    r.share1.length = B + 1 ∧ ∀ j ≤ B, r.share0.getD j 0#64 ^^^ r.share1.getD j 0#64 = if j ≤ maxPos isMax B r.value then r.rand.getD j 0#64 else 0#64
  | [], _, r, h => by cases h
  | w :: ws, g, r, h => by
    rcases List.mem_cons.1 h with rfl | h
    · refine ⟨Nat.lt_succ_iff.1 (Nat.mod_lt _ (Nat.succ_pos _)), by simp [clientMax], by simp [clientMax, maxEncode], fun j hj => ?_⟩
      simp only [clientMax]
      generalize (fun j => ((g.words (B + 1)).2.words (B + 1)).1.getD j 0#64) = sh
      have e : (List.zipWith (· ^^^ ·) ((List.range (B + 1)).map sh) (maxEncode isMax B (w.toNat % (B + 1)) fun j => (g.words (B + 1)).1.getD j 0#64)).getD j 0#64 =
          sh j ^^^ (if maxPos isMax B (w.toNat % (B + 1)) < j then 0#64 else (g.words (B + 1)).1.getD j 0#64) := by
        rw [List.getD_eq_getElem _ _ (by simp [maxEncode]; omega), List.getElem_zipWith]
        simp [maxEncode]
      rw [e, range_getD, if_pos hj, ← BitVec.xor_assoc, BitVec.xor_self, BitVec.zero_xor]
      split
      · rw [if_neg (by omega)]
      · rw [if_pos (by omega)]
    · exact maxRows_row isMax B ws _ r h

/-- The extreme value of a list, as the program computes it. -/
theorem fold_extreme (isMax : Bool) (B : ℕ) (f : ℕ → ℕ) (l : List ℕ) (hB : ∀ i ∈ l, f i ≤ B) (hne : l ≠ []) :
    let m := l.foldl (fun s i => if isMax then (if s < f i then f i else s) else (if f i < s then f i else s)) (if isMax then 0 else B)
    (∃ i ∈ l, f i = m) ∧ ∀ i ∈ l, atLeast isMax m (f i) := by
  have key : ∀ (l : List ℕ) (s : ℕ), let m := l.foldl (fun s i => if isMax then (if s < f i then f i else s) else (if f i < s then f i else s)) s
      atLeast isMax m s ∧ (∀ i ∈ l, atLeast isMax m (f i)) ∧ (m = s ∨ ∃ i ∈ l, f i = m) := by
    intro l
    induction l with
    | nil => intro s; simp [atLeast]
    | cons i l ih =>
      intro s
      obtain ⟨h1, h2, h3⟩ := ih (if isMax then (if s < f i then f i else s) else (if f i < s then f i else s))
      simp only [List.foldl_cons]
      generalize l.foldl (fun s i => if isMax then (if s < f i then f i else s) else (if f i < s then f i else s))
        (if isMax then (if s < f i then f i else s) else (if f i < s then f i else s)) = m at h1 h2 h3 ⊢
      have hd : (if isMax then (if s < f i then f i else s) else (if f i < s then f i else s)) = s ∨
          (if isMax then (if s < f i then f i else s) else (if f i < s then f i else s)) = f i := by
        split <;> split <;> simp
      refine ⟨?_, ?_, ?_⟩
      · revert h1; unfold atLeast; cases isMax <;> simp <;> split <;> omega
      · intro j hj
        rcases List.mem_cons.1 hj with rfl | hj
        · revert h1; unfold atLeast; cases isMax <;> simp <;> split <;> omega
        · exact h2 j hj
      · rcases h3 with h3 | ⟨j, hj, h3⟩
        · rcases hd with hd | hd
          · exact .inl (h3.trans hd)
          · exact .inr ⟨i, List.mem_cons_self, (h3.trans hd).symm⟩
        · exact .inr ⟨j, List.mem_cons_of_mem _ hj, h3⟩
  intro m
  obtain ⟨h1, h2, h3⟩ := key l (if isMax then 0 else B)
  refine ⟨?_, h2⟩
  rcases h3 with h3 | h3
  · obtain ⟨i, hi⟩ := List.exists_mem_of_ne_nil l hne
    refine ⟨i, hi, ?_⟩
    have a := h2 i hi
    have b := hB i hi
    rw [show m = _ from h3]
    rw [h3] at a
    revert a; unfold atLeast; cases isMax <;> simp
    omega
  · exact h3

/-- The words in column `j` of the clients that count and have value `v`. -/
def columnValid (row : ℕ → MaxRow) (n v j : ℕ) : List U64 := ((valid countsA n).filter fun i => (row i).value = v).map fun i => (row i).rand.getD j 0#64

/-- C80 for MAX and MIN, at least two submissions, provided that what the client finds in the released memory is harmless: the program prints the extreme
value of the clients not marked invalid, and if the servers answer, they answer with it, unless the words of the clients with this value cancel out in
its column. -/
theorem C80_max_partial (c : StoreCfg) {g0 g1 : StoreRng} (hg : GoodRng intModulus g0) {nbits : ℕ} (coef : ℕ → ℤ) (isMax : Bool) {n : ℕ} (h2 : 2 ≤ n)
    (hn : n * 251 < 2 ^ 32) {g : Prg} (ha : Function.Injective g.aes) {stale : Stale} (hs : Harmless stale spoilA (maxDraws isMax 250 n g).1 n countsA) :
    ∃ out, maxInvalid isMax stale n g = some out ∧
      (∃ i ∈ valid countsA n, ((maxDraws isMax 250 n g).2 i).value = out.2.2) ∧ (∀ i ∈ valid countsA n, atLeast isMax out.2.2 ((maxDraws isMax 250 n g).2 i).value) ∧
      (xorAll (columnValid (maxDraws isMax 250 n g).2 n out.2.2 (maxPos isMax 250 out.2.2)) ≠ 0#64 → ∀ e0 e1 s0 s1, Ready e0 e1 s0 s1 out.1 out.2.1 →
        ∃ s0' s1', Always (iteration false c g0 nbits coef e0 s0) (iteration true c g1 nbits coef e1 s1)
          (.nat (verdict (valid countsA n).length n out.2.2), s0') (.nat .noAns, s1') ∧ ∃ y, InStep y s0' s1') := by
  set key := (maxDraws isMax 250 n g).1 with hkey
  set row := (maxDraws isMax 250 n g).2 with hrow
  have hr : ∀ i < n, (row i).value ≤ 250 ∧ (row i).share0.length = 250 + 1 ∧ (row i).share1.length = 250 + 1 ∧
      ∀ j ≤ 250, (row i).share0.getD j 0#64 ^^^ (row i).share1.getD j 0#64 = if j ≤ maxPos isMax 250 (row i).value then (row i).rand.getD j 0#64 else 0#64 := by
    intro i hi
    refine maxRows_row isMax 250 ((g.blocks n).2.words n).1 ((g.blocks n).2.words n).2 _ ?_
    show (maxRows _ _ _ _).getD i default ∈ _
    rw [List.getD_eq_getElem _ _ (by rw [maxRows_length]; simpa [Prg.words] using hi)]
    exact List.getElem_mem _
  obtain ⟨a, b, ea, eb, la, lb, ka, kb, ra, rb, hnd, hf, hbk⟩ := spoiled_keys (ok := fun _ : List U64 => true) (sh0 := fun i => (row i).share0)
    (sh1 := fun i => (row i).share1) (key := key)
    (good := countsA) (fun i => C54_length _) (C80_keys_distinct ha (by omega)) (fun i => misspell_ne _ _) hs (by decide)
    (by intro i _; rw [countsA_iff]; simp [spoilA])
  have hlt : ∀ i ∈ valid countsA n, i < n := fun i hi => List.mem_range.1 (List.mem_filter.1 hi).1
  have hne : valid countsA n ≠ [] := by
    intro h
    have : 1 ∈ valid countsA n := List.mem_filter.2 ⟨List.mem_range.2 (by omega), by decide⟩
    rw [h] at this
    cases this
  have hext := fold_extreme isMax 250 (fun i => (row i).value) (valid countsA n) (fun i hi => (hr i (hlt i hi)).1) hne
  have hfold : (List.range n).foldl (fun s i => if i = 0 ∨ i = 2 ∨ i = 4 then s else
        if isMax then (if s < (row i).value then (row i).value else s) else (if (row i).value < s then (row i).value else s)) (if isMax then 0 else 250) =
      (valid countsA n).foldl (fun s i => if isMax then (if s < (row i).value then (row i).value else s) else (if (row i).value < s then (row i).value else s))
        (if isMax then 0 else 250) := fold_valid countsA_false _ n _
  dsimp only at hext
  set printed := (valid countsA n).foldl (fun s i => if isMax then (if s < (row i).value then (row i).value else s) else (if (row i).value < s then (row i).value else s))
        (if isMax then 0 else 250) with hpr
  have hpB : printed ≤ 250 := by
    obtain ⟨i, hi, e⟩ := hext.1
    rw [← e]; exact (hr i (hlt i hi)).1
  have hcol : ∀ j ≤ 250, maxCol a b j = xorAll (((valid countsA n).filter fun i => decide (j ≤ maxPos isMax 250 (row i).value)).map fun i => (row i).rand.getD j 0#64) := by
    intro j hj
    unfold maxCol
    rw [hbk, xorOver_list _ hnd, List.map_map]
    change xorAll ((valid countsA n).map _) = _
    rw [← xorAll_filter]
    congr 1
    refine List.map_congr_left fun i hi => ?_
    rw [Function.comp_apply, (hf i hi).1, (hf i hi).2, Option.getD_some, Option.getD_some, (hr i (hlt i hi)).2.2.2 j hj]
    simp
  have hj : maxPos isMax 250 printed ≤ 250 := by unfold maxPos; split <;> omega
  have hposle : ∀ i ∈ valid countsA n, maxPos isMax 250 (row i).value ≤ maxPos isMax 250 printed := by
    intro i hi
    have h1 := hext.2 i hi
    have h2 := (hr i (hlt i hi)).1
    clear * - h1 h2 hpB
    cases isMax <;> simp only [maxPos, atLeast, Bool.false_eq_true, if_true, if_false] at h1 ⊢ <;> omega
  have htop : maxCol a b (maxPos isMax 250 printed) = xorAll (columnValid row n printed (maxPos isMax 250 printed)) := by
    rw [hcol _ hj, columnValid]
    congr 2
    refine List.filter_congr fun i hi => ?_
    have h1 := hposle i hi
    have h2 := (hr i (hlt i hi)).1
    simp only [decide_eq_decide]
    clear * - h1 h2 hpB
    cases isMax <;> simp only [maxPos, Bool.false_eq_true, if_true, if_false] at h1 ⊢ <;> omega
  have habove : ∀ i, maxPos isMax 250 printed < i → i ≤ 250 → maxCol a b i = 0#64 := by
    intro j h1 h2
    rw [hcol j h2]
    have : (valid countsA n).filter (fun i => decide (j ≤ maxPos isMax 250 (row i).value)) = [] := by
      rw [List.filter_eq_nil_iff]
      intro i hi
      have := hposle i hi
      simp; omega
    rw [this]; rfl
  have hcard : (bothKeys (fun _ => true) a b).card = (valid countsA n).length := by
    rw [hbk, List.toFinset_card_of_nodup hnd, List.length_map]; rfl
  refine ⟨(encInit (initMsg (if isMax then 5#32 else 6#32) n 250#32) ++ maxBytes a, encInit (initMsg (if isMax then 5#32 else 6#32) n 250#32) ++ maxBytes b,
      printed), ?_, hext.1, hext.2, ?_⟩
  · unfold maxInvalid
    simp only [← hkey, ← hrow, ea, eb, Option.bind_some, Option.map_some, hfold]
  · intro hw e0 e1 s0 s1 h
    obtain ⟨y, hy⟩ := h.step
    have ho : ∀ subs, Opens (if isMax then 5#32 else 6#32) n (some 250)
        (encInit (initMsg (if isMax then 5#32 else 6#32) n 250#32) ++ maxBytes subs) (encMaxShares subs ++ []) := by
      intro subs
      refine ⟨by omega, 250#32, fun b hb => ?_, ?_⟩
      · cases hb; rfl
      · rw [List.append_nil]
        simp [encMaxShares, maxBytes, initMsg, List.flatMap]
    have rows : ∀ (l : List (Bytes × List U64)) (f : ℕ → List U64), l.map (·.2) = (List.range n).map f → (∀ i < n, (f i).length = 250 + 1) → RowsOk 250 l := by
      intro l f hl hf e he
      have : e.2 ∈ (List.range n).map f := by rw [← hl]; exact List.mem_map.2 ⟨e, he, rfl⟩
      obtain ⟨i, hi, e'⟩ := List.mem_map.1 this
      rw [← e']
      exact hf i (List.mem_range.1 hi)
    obtain ⟨r, s0', s1', hP, hA, hI⟩ := iteration_pair c (g1 := g1) hg (nbits := nbits) coef (b := .max isMax 250 a b) (e0 := e0) (e1 := e1)
      ⟨[], [], by rw [h.stream0, la]; exact ho _, by rw [h.stream1, lb]; exact ho _⟩
      ⟨ka, kb, rows a _ ra fun i hi => (hr i hi).2.1, rows b _ rb fun i hi => (hr i hi).2.2.1, by norm_num, by rw [la]; exact hn, by rw [lb]; exact hn,
        Or.inr ⟨_, hj, by rw [htop]; exact hw⟩⟩ h.ord h.draw hy
    refine ⟨s0', s1', ?_, _, hI⟩
    have : r = .nat (verdict (valid countsA n).length n printed) := by
      simp only [Batch.Answers, hcard, la] at hA
      unfold verdict
      split at hA
      · next hlt => rw [if_pos hlt]; exact hA
      · next hlt =>
        rw [if_neg hlt]
        obtain ⟨j, hjB, hjne, hjz, rfl⟩ := hA
        have e : j = maxPos isMax 250 printed := by
          by_contra hd
          rcases Nat.lt_or_gt_of_ne hd with hd | hd
          · exact hw (by rw [← htop]; exact hjz _ hd hj)
          · exact hjne (habove j hd hjB)
        rw [e]
        congr 2
        unfold maxPos
        split <;> omega
    rw [this] at hP
    exact hP.always

/-! ## The words drawn for clients 0 and 1 of INT_SUM -/

/-- INT_SUM with the words drawn for clients 0 and 1 out of range: the answer is the sum printed. -/
theorem C80_int_sum_same_partial (c : StoreCfg) {g0 g1 : StoreRng} (hg : GoodRng intModulus g0) {nbits : ℕ} (hb : nbits ≤ 63) (coef : ℕ → ℤ) {n : ℕ}
    (hn : n < 2 ^ 32) (mx : BitVec 32) {g : Prg} (ha : Function.Injective g.aes) {stale : Stale}
    (hs : Harmless stale spoilB (intDraws n g).1 n countsB) (h0 : 2 ^ nbits ≤ ((intDraws n g).2.1 0).toNat) (h1 : 2 ^ nbits ≤ ((intDraws n g).2.2 1).toNat) :
    ∃ out, intSumInvalid nbits stale n mx g = some out ∧ ∀ e0 e1 s0 s1, Ready e0 e1 s0 s1 out.1 out.2.1 →
        ∃ s0' s1', Always (iteration false c g0 nbits coef e0 s0) (iteration true c g1 nbits coef e1 s1)
          (.word (if n = 0 ∨ 10 ≤ n then .ans out.2.2 else .invalid), s0') (.word .noAns, s1') ∧ ∃ y, InStep y s0' s1' := by
  obtain ⟨out, ho, hp, h⟩ := C80_int_sum_partial c (g1 := g1) hg hb coef hn mx ha (stale := stale) (by rw [acceptedB_eq h0 h1]; exact hs)
  refine ⟨out, ho, fun e0 e1 s0 s1 hr => ?_⟩
  rw [acceptedB_eq h0 h1] at h
  have := h e0 e1 s0 s1 hr
  rwa [← hp, C80_threshold_int] at this

/-- Even with the keys the comments have in mind, C80 is false for INT_SUM: if the word drawn for client 0 (marked "x > max") is in range and not zero, the
servers count it, and their answer is not the one printed. -/
theorem C80_false_in_range (c : StoreCfg) {g0 g1 : StoreRng} (hg : GoodRng intModulus g0) {nbits : ℕ} (hb : nbits ≤ 63) (coef : ℕ → ℤ) {n : ℕ}
    (h10 : 10 ≤ n) (hn : n < 2 ^ 32) (mx : BitVec 32) {g : Prg} (ha : Function.Injective g.aes) (h0 : ((intDraws n g).2.1 0).toNat < 2 ^ nbits)
    (hz : (intDraws n g).2.1 0 ≠ 0#64) (h1 : 2 ^ nbits ≤ ((intDraws n g).2.2 1).toNat) :
    ∃ out r, intSumInvalid nbits (.meant (intDraws n g).1) n mx g = some out ∧ r ≠ out.2.2 ∧ ∀ e0 e1 s0 s1, Ready e0 e1 s0 s1 out.1 out.2.1 →
        ∃ s0' s1', Always (iteration false c g0 nbits coef e0 s0) (iteration true c g1 nbits coef e1 s1)
          (.word (.ans r), s0') (.word .noAns, s1') ∧ ∃ y, InStep y s0' s1' := by
  have hm : Harmless (.meant (intDraws n g).1) spoilB (intDraws n g).1 n (acceptedB nbits (intDraws n g).2.1 (intDraws n g).2.2) :=
    C80_meant _ (fun i => C54_length _) n spoilB (by decide) (by decide) ((acceptedB_iff _ _ _ _).2 ⟨by decide, by decide, by decide, by simp [spoilB], by simp [spoilB]⟩)
      ((acceptedB_iff _ _ _ _).2 ⟨by decide, by decide, by decide, by simp [spoilB], by simp [spoilB]⟩)
  obtain ⟨out, ho, hp, h⟩ := C80_int_sum_partial c (g1 := g1) hg hb coef hn mx ha hm
  have hv : valid (acceptedB nbits (intDraws n g).2.1 (intDraws n g).2.2) n = 0 :: valid countsB n := by
    obtain ⟨m, rfl⟩ := Nat.exists_eq_add_of_le (show 1 ≤ n by omega)
    unfold valid
    rw [Nat.add_comm, List.range_succ_eq_map, List.filter_cons_of_pos (by rw [acceptedB_iff]; exact ⟨by decide, by decide, by decide, fun _ => by rwa [Nat.add_comm], by simp⟩),
      List.filter_cons_of_neg (by decide)]
    congr 1
    refine List.filter_congr fun i hi => ?_
    obtain ⟨j, -, rfl⟩ := List.mem_map.1 hi
    rw [Bool.eq_iff_iff, acceptedB_iff, countsB_iff]
    constructor
    · rintro ⟨a, b, c, -, e⟩
      refine ⟨?_, b, c⟩
      by_contra hlt
      have : j = 0 := by omega
      subst this
      have := e rfl
      rw [Nat.add_comm] at h1
      omega
    · rintro ⟨a, b, c⟩
      exact ⟨by omega, b, c, by omega, by omega⟩
  refine ⟨out, (intDraws n g).2.1 0 + out.2.2, ho, ?_, fun e0 e1 s0 s1 hr => ?_⟩
  · intro he
    refine hz ?_
    have := congrArg (· - out.2.2) he
    simpa using this
  · have := h e0 e1 s0 s1 hr
    rw [hv, List.length_cons, List.map_cons, List.sum_cons, BitVec.ofNat_add, ← hp] at this
    have hl : 4 < (valid countsB n).length := by
      obtain ⟨d, rfl⟩ := Nat.exists_eq_add_of_le h10
      have : (valid countsB 10).length = 5 := by decide
      rw [valid_tail _ _ _ (by intro i hi; simp [countsB]; omega), this]
      omega
    have hl2 : ¬ 2 * ((valid countsB n).length + 1) < n := by
      obtain ⟨d, rfl⟩ := Nat.exists_eq_add_of_le h10
      have : (valid countsB 10).length = 5 := by decide
      rw [valid_tail _ _ _ (by intro i hi; simp [countsB]; omega), this]
      omega
    rw [verdict, if_neg hl2] at this
    have e : BitVec.ofNat 64 (intReal nbits (intDraws n g).2.1 0).toNat = (intDraws n g).2.1 0 := by
      rw [BitVec.ofNat_toNat, BitVec.setWidth_eq]; rfl
    rwa [e] at this

/-! ## The hypotheses can be met -/

/-- The generator of the examples is a permutation, and the keys the comments have in mind are harmless, for every number of submissions. -/
example (n : ℕ) : Function.Injective plainPrg.aes ∧ Harmless (.meant (bitDraws n plainPrg).1) spoilA (bitDraws n plainPrg).1 n countsA ∧
    Harmless (.meant (intDraws n plainPrg).1) spoilB (intDraws n plainPrg).1 n countsB ∧
    Harmless (.meant (xorDraws n plainPrg).1) spoilA (xorDraws n plainPrg).1 n countsA ∧
    Harmless (.meant (maxDraws true 250 n plainPrg).1) spoilA (maxDraws true 250 n plainPrg).1 n countsA :=
  ⟨plainPrg_injective, C80_meant _ (fun _ => C54_length _) n spoilA (by decide) (by decide) (by decide) (by decide),
    C80_meant _ (fun _ => C54_length _) n spoilB (by decide) (by decide) (by decide) (by decide),
    C80_meant _ (fun _ => C54_length _) n spoilA (by decide) (by decide) (by decide) (by decide),
    C80_meant _ (fun _ => C54_length _) n spoilA (by decide) (by decide) (by decide) (by decide)⟩

/-- So are two different finds that are no keys at all. -/
example (n : ℕ) : Harmless (fun i => some (List.replicate 32 (if i = 2 then 0#8 else 1#8))) spoilA (bitDraws n plainPrg).1 n countsA := by
  have hk : ∀ (c : Byte) (i : ℕ), ¬ IsHex c → List.replicate 32 c ≠ (bitDraws n plainPrg).1 i := by
    intro c i hc he
    exact hc (C54_charset _ c (by rw [show pubKeyToHex _ = (bitDraws n plainPrg).1 i from rfl, ← he]; simp))
  refine ⟨?_, fun _ _ he => absurd he (by decide)⟩
  rintro i (rfl | rfl) _
  · exact ⟨_, rfl, by decide, .inr ⟨fun j _ => hk _ j (by unfold IsHex; decide), by intro he; have := congrArg List.head? he; revert this; simp [spoilA, misspell]⟩⟩
  · exact ⟨_, rfl, by decide, .inr ⟨fun j _ => hk _ j (by unfold IsHex; decide), by intro he; have := congrArg List.head? he; revert this; simp [spoilA, misspell]⟩⟩

/-- A run with ten submissions whose words for clients 0 and 1 are out of range for 5 bits, and one with eleven submissions and 63 bits where that of
client 0 is in range. -/
example : (2 ^ 5 ≤ ((intDraws 10 plainPrg).2.1 0).toNat ∧ 2 ^ 5 ≤ ((intDraws 10 plainPrg).2.2 1).toNat) ∧
    ((intDraws 11 plainPrg).2.1 0).toNat < 2 ^ 63 ∧ (intDraws 11 plainPrg).2.1 0 ≠ 0#64 ∧ 2 ^ 63 ≤ ((intDraws 11 plainPrg).2.2 1).toNat := by decide +kernel

/-- Six submissions to MAX: the words of the clients with the largest value do not cancel out. -/
example : ((maxInvalid true (.meant (maxDraws true 250 6 plainPrg).1) 6 plainPrg).map fun o =>
    xorAll (columnValid (maxDraws true 250 6 plainPrg).2 6 o.2.2 (maxPos true 250 o.2.2)) != 0#64) = some true := by decide +kernel

end Verif

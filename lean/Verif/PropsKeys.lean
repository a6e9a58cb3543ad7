import Verif.ModelUpload
import Mathlib.Data.Nat.Digits.Lemmas

/-!
# C54: keys are 32 lower-case hexadecimal characters and injective; C53 is false: a key gives away the next value
-/

namespace Verif

/-! ## Reading a key -/

/-- The characters 0-9 and a-f. -/
def IsHex (c : Byte) : Prop := (48 ≤ c.toNat ∧ c.toNat ≤ 57) ∨ (97 ≤ c.toNat ∧ c.toNat ≤ 102)

/-- The value of a hexadecimal character. -/
def unhex (c : Byte) : ℕ := if c.toNat < 58 then c.toNat - 48 else c.toNat - 87

/-- The number written in hexadecimal, most significant digit first. -/
def parseHex (s : Bytes) : ℕ := s.foldl (fun n c => 16 * n + unhex c) 0

theorem hexDigit_isHex : ∀ {d : ℕ}, d < 16 → IsHex (hexDigit d) := by unfold IsHex; decide

theorem unhex_hexDigit : ∀ {d : ℕ}, d < 16 → unhex (hexDigit d) = d := by decide

theorem parse_append (s t : Bytes) : parseHex (s ++ t) = t.foldl (fun n c => 16 * n + unhex c) (parseHex s) := List.foldl_append ..

theorem parse_zeros (k : ℕ) : parseHex (List.replicate k (hexDigit 0)) = 0 := by
  induction k with
  | zero => rfl
  | succ k ih => rw [List.replicate_succ', parse_append, ih]; rfl

theorem parse_digits {l : List ℕ} (h : ∀ d ∈ l, d < 16) : parseHex (l.reverse.map hexDigit) = Nat.ofDigits 16 l := by
  induction l with
  | nil => rfl
  | cons d l ih =>
    rw [List.reverse_cons, List.map_append, parse_append, ih fun d hd => h d (List.mem_cons_of_mem _ hd)]
    show 16 * _ + unhex (hexDigit d) = _
    rw [unhex_hexDigit (h d List.mem_cons_self), Nat.ofDigits_cons]
    simp [add_comm]

theorem parse_hexWord (n : ℕ) : parseHex (hexWord n) = n := by
  unfold hexWord
  split
  · rename_i h; rw [h]; rfl
  · rw [parse_digits fun d hd => Nat.digits_lt_base (by norm_num) hd, Nat.ofDigits_digits]

theorem parse_setw (n : ℕ) : parseHex (setw16 (hexWord n)) = n := by
  rw [setw16, parse_append, parse_zeros]
  exact parse_hexWord n

theorem hexWord_length {n : ℕ} (h : n < 2 ^ 64) : (hexWord n).length ≤ 16 := by
  unfold hexWord
  split
  · simp
  · rw [List.length_map, List.length_reverse, Nat.digits_length_le_iff (by norm_num)]
    exact lt_of_lt_of_eq h (by norm_num)

theorem setw_length {n : ℕ} (h : n < 2 ^ 64) : (setw16 (hexWord n)).length = 16 := by
  have := hexWord_length h
  simp only [setw16, List.length_append, List.length_replicate]
  omega

theorem setw_isHex (n : ℕ) : ∀ c ∈ setw16 (hexWord n), IsHex c := by
  intro c hc
  rcases List.mem_append.1 hc with hc | hc
  · rw [(List.mem_replicate.1 hc).2]; exact hexDigit_isHex (by norm_num)
  · unfold hexWord at hc
    split at hc
    · rw [List.mem_singleton.1 hc]; exact hexDigit_isHex (by norm_num)
    · obtain ⟨d, hd, rfl⟩ := List.mem_map.1 hc
      exact hexDigit_isHex (Nat.digits_lt_base (by norm_num) (List.mem_reverse.1 hd))

/-- C54: 32 characters. -/
theorem C54_length (b : BitVec 128) : (pubKeyToHex b).length = 32 := by
  rw [pubKeyToHex, List.length_append, setw_length (BitVec.isLt _), setw_length (BitVec.isLt _)]

/-- C54: all of them lower-case hexadecimal digits. -/
theorem C54_charset (b : BitVec 128) : ∀ c ∈ pubKeyToHex b, IsHex c := by
  intro c hc
  rcases List.mem_append.1 hc with hc | hc <;> exact setw_isHex _ c hc

/-- The block can be read off its key: first 16 characters the low half, the others the high half. -/
theorem C54_readable (b : BitVec 128) :
    parseHex ((pubKeyToHex b).take 16) = (b.extractLsb' 0 64).toNat ∧ parseHex ((pubKeyToHex b).drop 16) = (b.extractLsb' 64 64).toNat := by
  unfold pubKeyToHex
  have h := setw_length (BitVec.isLt (b.extractLsb' 0 64))
  constructor
  · have := List.take_left (l₁ := setw16 (hexWord (b.extractLsb' 0 64).toNat)) (l₂ := setw16 (hexWord (b.extractLsb' 64 64).toNat))
    rw [h] at this
    rw [this, parse_setw]
  · have := List.drop_left (l₁ := setw16 (hexWord (b.extractLsb' 0 64).toNat)) (l₂ := setw16 (hexWord (b.extractLsb' 64 64).toNat))
    rw [h] at this
    rw [this, parse_setw]

/-- C54: different blocks have different keys. -/
theorem C54_injective : Function.Injective pubKeyToHex := by
  intro a b h
  obtain ⟨a1, a2⟩ := C54_readable a
  obtain ⟨b1, b2⟩ := C54_readable b
  rw [h, b1] at a1
  rw [h, b2] at a2
  apply BitVec.eq_of_getLsbD_eq
  intro i hi
  by_cases hl : i < 64
  · have := congrArg (fun x : BitVec 64 => x.getLsbD i) (BitVec.eq_of_toNat_eq a1)
    simpa [hl] using this.symm
  · have := congrArg (fun x : BitVec 64 => x.getLsbD (i - 64)) (BitVec.eq_of_toNat_eq a2)
    have e : 64 + (i - 64) = i := by omega
    have h' : i - 64 < 64 := by omega
    simpa [h', e] using this.symm

/-- A block with leading zeros in both halves. -/
example : pubKeyToHex 0x000000000000000f0000000000000abc#128 =
    [0x30,0x30,0x30,0x30,0x30,0x30,0x30,0x30,0x30,0x30,0x30,0x30,0x30,0x61,0x62,0x63,
     0x30,0x30,0x30,0x30,0x30,0x30,0x30,0x30,0x30,0x30,0x30,0x30,0x30,0x30,0x30,0x66] := by decide +kernel

/-! ## C53 -/

/-- Where the generator stands after `i` submissions. -/
def posAfter {ρ α : Type} (one : Prg → (ρ × α × α) × Prg) : ℕ → Prg → Prg
  | 0, g => g
  | i + 1, g => posAfter one i (one g).2

theorem upload_get {ρ α : Type} (one : Prg → (ρ × α × α) × Prg) : ∀ (n i : ℕ) (g : Prg), i < n →
    (uploadLoop one n g)[i]? = some ⟨makePk (posAfter one (i + 1) g), (one (posAfter one i g)).1.1, (one (posAfter one i g)).1.2.1,
      (one (posAfter one i g)).1.2.2⟩
  | 0, i, g, h => by omega
  | n + 1, 0, g, _ => rfl
  | n + 1, i + 1, g, h => by
    rw [uploadLoop, List.getElem?_cons_succ, upload_get one n i _ (by omega)]
    rfl

theorem upload_length {ρ α : Type} (one : Prg → (ρ × α × α) × Prg) : ∀ (n : ℕ) (g : Prg), (uploadLoop one n g).length = n
  | 0, _ => rfl
  | n + 1, g => by rw [uploadLoop, List.length_cons, upload_length]

/-- The first 16 characters of a key are the word the generator hands out next. -/
theorem key_is_next_word (g : Prg) : parseHex ((makePk g).take 16) = g.word.1.toNat := (C54_readable _).1

/-- C53 is false for INT_SUM: whatever the generator, the value of each submission after the first is a function of the public key of the
submission before it, namely the number in its first 16 characters modulo `2 ^ num_bits`. -/
theorem C53_false_int_sum (nbits n i : ℕ) (hb : nbits < 64) (g : Prg) (hi : i + 1 < n) :
    ∃ r r', (uploadLoop (intOne nbits) n g)[i]? = some r ∧ (uploadLoop (intOne nbits) n g)[i + 1]? = some r' ∧
      r'.real.toNat = parseHex (r.pk.take 16) % 2 ^ nbits := by
  refine ⟨_, _, upload_get _ n i g (by omega), upload_get _ n (i + 1) g hi, ?_⟩
  rw [key_is_next_word]
  show (_ % (1#64 <<< nbits) : U64).toNat = _
  rw [BitVec.toNat_umod, BitVec.toNat_shiftLeft]
  have : (2 : ℕ) ^ nbits < 2 ^ 64 := Nat.pow_lt_pow_right (by norm_num) hb
  simp only [BitVec.toNat_ofNat, Nat.shiftLeft_eq, Nat.reducePow, Nat.reduceMod, one_mul] at this ⊢
  rw [Nat.mod_eq_of_lt this]

/-- The same for MAX and MIN. -/
theorem C53_false_max (isMax : Bool) (B n i : ℕ) (g : Prg) (hi : i + 1 < n) :
    ∃ r r', (uploadLoop (maxOne isMax B) n g)[i]? = some r ∧ (uploadLoop (maxOne isMax B) n g)[i + 1]? = some r' ∧
      r'.real.1 = parseHex (r.pk.take 16) % (B + 1) := by
  refine ⟨_, _, upload_get _ n i g (by omega), upload_get _ n (i + 1) g hi, ?_⟩
  rw [key_is_next_word]
  rfl

/-- The same for FREQ. -/
theorem C53_false_freq (nbits n i : ℕ) (hb : nbits < 64) (g : Prg) (hi : i + 1 < n) :
    ∃ r r', (uploadLoop (freqOne nbits) n g)[i]? = some r ∧ (uploadLoop (freqOne nbits) n g)[i + 1]? = some r' ∧
      r'.real.toNat = parseHex (r.pk.take 16) % 2 ^ nbits := by
  refine ⟨_, _, upload_get _ n i g (by omega), upload_get _ n (i + 1) g hi, ?_⟩
  rw [key_is_next_word]
  show (_ % (1#64 <<< nbits) : U64).toNat = _
  rw [BitVec.toNat_umod, BitVec.toNat_shiftLeft]
  have : (2 : ℕ) ^ nbits < 2 ^ 64 := Nat.pow_lt_pow_right (by norm_num) hb
  simp only [BitVec.toNat_ofNat, Nat.shiftLeft_eq, Nat.reducePow, Nat.reduceMod, one_mul] at this ⊢
  rw [Nat.mod_eq_of_lt this]

theorem var_real {nbits : ℕ} (hb : nbits < 64) {t : RootTables} {r : SnipRand} {g : Prg} {o : U64 × SnipRow × SnipRow} (h : (varOne nbits t r g).1 = some o) :
    o.1.toNat = g.word.1.toNat % 2 ^ nbits := by
  have e : o.1 = g.word.1 % (1#64 <<< nbits) := by
    simp only [varOne, clientVar] at h
    obtain ⟨c, -, h⟩ := Option.bind_eq_some_iff.1 h
    obtain ⟨e, -, h⟩ := Option.bind_eq_some_iff.1 h
    obtain ⟨pk, -, rfl⟩ := Option.map_eq_some_iff.1 h
    rfl
  rw [e, BitVec.toNat_umod, BitVec.toNat_shiftLeft]
  have : (2 : ℕ) ^ nbits < 2 ^ 64 := Nat.pow_lt_pow_right (by norm_num) hb
  simp only [BitVec.toNat_ofNat, Nat.shiftLeft_eq, Nat.reducePow, Nat.reduceMod, one_mul] at this ⊢
  rw [Nat.mod_eq_of_lt this]

/-- The same for VAR and STDDEV. -/
theorem C53_false_var {nbits : ℕ} (hb : nbits < 64) (t : RootTables) : ∀ (rs : List SnipRand) (g : Prg) {rows : List (Row U64 SnipRow)}
    (_ : varLoop nbits t rs g = some rows) (i : ℕ) (_ : i + 1 < rs.length),
    ∃ r r', rows[i]? = some r ∧ rows[i + 1]? = some r' ∧ r'.real.toNat = parseHex (r.pk.take 16) % 2 ^ nbits
  | [], _, _, _, i, hi => by simp at hi
  | [_], _, _, _, i, hi => by simp at hi
  | r1 :: r2 :: rs, g, rows, h, i, hi => by
    rw [varLoop] at h
    obtain ⟨o1, -, h0⟩ := Option.bind_eq_some_iff.1 h
    obtain ⟨l1, h1, rfl⟩ := Option.map_eq_some_iff.1 h0
    cases i with
    | succ i =>
      have := C53_false_var hb t (r2 :: rs) _ h1 i (by simpa using hi)
      simpa using this
    | zero =>
      rw [varLoop] at h1
      obtain ⟨o2, h2, h3⟩ := Option.bind_eq_some_iff.1 h1
      obtain ⟨l2, -, rfl⟩ := Option.map_eq_some_iff.1 h3
      refine ⟨_, _, rfl, rfl, ?_⟩
      dsimp only
      rw [key_is_next_word, var_real hb h2]

/-- The same for LINREG: the key of a submission gives the first two features of the next one (all of them, if there are at most two). -/
theorem C53_false_lin (d nbits : ℕ) (t : RootTables) : ∀ (rs : List SnipRand) (g : Prg) {rows : List (Row LinDraws LinRow)}
    (_ : linLoop d nbits t rs g = some rows) (i : ℕ) (_ : i + 1 < rs.length),
    ∃ r r', rows[i]? = some r ∧ rows[i + 1]? = some r' ∧
      (2 ≤ d → ∃ a, r'.real.xReal[0]? = some a ∧ a.toNat = parseHex (r.pk.take 16)) ∧
      (3 ≤ d → ∃ b, r'.real.xReal[1]? = some b ∧ b.toNat = parseHex (r.pk.drop 16))
  | [], _, _, _, i, hi => by simp at hi
  | [_], _, _, _, i, hi => by simp at hi
  | r1 :: r2 :: rs, g, rows, h, i, hi => by
    rw [linLoop] at h
    obtain ⟨o1, -, h0⟩ := Option.bind_eq_some_iff.1 h
    obtain ⟨l1, h1, rfl⟩ := Option.map_eq_some_iff.1 h0
    cases i with
    | succ i =>
      have := C53_false_lin d nbits t (r2 :: rs) _ h1 i (by simpa using hi)
      simpa using this
    | zero =>
      rw [linLoop] at h1
      obtain ⟨o2, h2, h3⟩ := Option.bind_eq_some_iff.1 h1
      obtain ⟨l2, -, rfl⟩ := Option.map_eq_some_iff.1 h3
      have hk := C54_readable ((linDraws d g).2.blk (linDraws d g).2.pos)
      refine ⟨_, _, rfl, rfl, fun hd => ⟨(linDraws d g).2.wordAt (linDraws d g).2.pos 0, ?_, hk.1.symm⟩,
        fun hd => ⟨(linDraws d g).2.wordAt (linDraws d g).2.pos 1, ?_, hk.2.symm⟩⟩
      · show ((List.range (d - 1)).map ((linDraws d g).2.wordAt (linDraws d g).2.pos))[0]? = _
        rw [List.getElem?_map, List.getElem?_range (by omega), Option.map_some]
      · show ((List.range (d - 1)).map ((linDraws d g).2.wordAt (linDraws d g).2.pos))[1]? = _
        rw [List.getElem?_map, List.getElem?_range (by omega), Option.map_some]

/-- A generator. -/
def plainPrg : Prg := ⟨fun b => b * 0x9e3779b97f4a7c15f39cc0605cedc835#128, fun p _ i => (p + i) % 2 == 0, fun p n => p + n / 16 + 2, 0⟩

/-- What of C53 holds: the key of a submission is not made from blocks that its own shares are made from. Precisely, values and shares of
submission `i` of INT_SUM come from blocks `2i` and `2i+1`, its key from block `2i+2`. What is missing is the independence from later
submissions, which is false. -/
theorem C53_own_values_partial (nbits n i : ℕ) (g : Prg) (hi : i < n) : ∃ r, (uploadLoop (intOne nbits) n g)[i]? = some r ∧
    (r.real, r.share0, r.share1) = clientInt nbits ((g.blk (g.pos + 2 * i)).extractLsb' 0 64) ((g.blk (g.pos + 2 * i + 1)).extractLsb' 0 64) ∧
    r.pk = pubKeyToHex (g.blk (g.pos + 2 * i + 2)) := by
  have hp : ∀ (i : ℕ) (g : Prg), posAfter (intOne nbits) i g = { g with pos := g.pos + 2 * i } := by
    intro i
    induction i with
    | zero => intro g; rfl
    | succ i ih =>
      intro g
      rw [posAfter, ih]
      simp only [intOne, Prg.word, Prg.mk.injEq, true_and]
      omega
  refine ⟨_, upload_get _ n i g hi, ?_, ?_⟩
  · simp only [hp]; rfl
  · simp only [hp]; rfl

end Verif

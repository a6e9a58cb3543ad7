import Verif.ModelOt
import Verif.LemmasProc
import Mathlib.Data.ZMod.Basic
import Mathlib.Tactic.Ring
import Mathlib.Tactic.LinearCombination

/-!
# Lemmas on the OT sums

`Interp m R φ Small Mid` collects what is needed of an interpretation `φ` of machine words in a ring `R` so that the
accumulations of `ot.cpp` become sums in `R`. Two instances: `R = BitVec 64` for modulus argument 0, and `R = ZMod m`
for a non-zero modulus up to 2^62.
-/

namespace Verif

/-- Interpretation of accumulators. -/
structure Interp (m : U64) (R : Type) [CommRing R] where
  φ : U64 → R
  small : U64 → Prop
  mid : U64 → Prop
  zero : φ 0#64 = 0
  smallZero : small 0#64
  midZero : mid 0#64
  acc : ∀ s c, small s → mid c → small (redMod m (s + c)) ∧ φ (redMod m (s + c)) = φ s + φ c

theorem Interp.fold {m : U64} {R : Type} [CommRing R] (I : Interp m R) (xs : List U64) (s : U64) (hs : I.small s)
    (h : ∀ x ∈ xs, I.mid x) :
    I.small (xs.foldl (fun s x => redMod m (s + x)) s) ∧
      I.φ (xs.foldl (fun s x => redMod m (s + x)) s) = I.φ s + (xs.map I.φ).sum := by
  induction xs generalizing s with
  | nil => simpa using hs
  | cons x xs ih =>
    have hx := I.acc s x hs (h x (List.mem_cons_self ..))
    have := ih (redMod m (s + x)) hx.1 fun y hy => h y (List.mem_cons_of_mem _ hy)
    refine ⟨this.1, ?_⟩
    rw [List.foldl_cons, this.2, hx.2, List.map_cons, List.sum_cons, add_assoc]

/-- Modulus 0: words themselves. -/
def interp0 : Interp 0#64 U64 where
  φ := id
  small _ := True
  mid _ := True
  zero := rfl
  smallZero := trivial
  midZero := trivial
  acc s c _ _ := by simp [redMod]

theorem redMod_toNat {m x : U64} (hm : m ≠ 0#64) : (redMod m x).toNat = x.toNat % m.toNat := by
  simp [redMod, hm, BitVec.toNat_umod]

theorem toNat_pos_of_ne {m : U64} (hm : m ≠ 0#64) : 0 < m.toNat := by
  rcases Nat.eq_zero_or_pos m.toNat with h | h
  · exact absurd (BitVec.eq_of_toNat_eq (by simpa using h)) hm
  · exact h

theorem redMod_lt {m x : U64} (hm : m ≠ 0#64) : (redMod m x).toNat < m.toNat := by
  rw [redMod_toNat hm]; exact Nat.mod_lt _ (toNat_pos_of_ne hm)

/-- Non-zero modulus up to 2^62: residues. -/
def interpMod (m : U64) (hm : m ≠ 0#64) (hb : m.toNat ≤ 2 ^ 62) : Interp m (ZMod m.toNat) where
  φ x := (x.toNat : ZMod m.toNat)
  small x := x.toNat < m.toNat
  mid x := x.toNat ≤ 2 * m.toNat
  zero := by simp
  smallZero := by simpa using toNat_pos_of_ne hm
  midZero := by simp
  acc s c hs hc := by
    refine ⟨redMod_lt hm, ?_⟩
    rw [redMod_toNat hm, ZMod.natCast_mod, BitVec.toNat_add, Nat.mod_eq_of_lt (by omega)]
    push_cast; ring

/-- A modulus that divides 2^64: residues, no size condition. -/
def interpPow (m : U64) (hm : m ≠ 0#64) (hb : m.toNat ∣ 2 ^ 64) : Interp m (ZMod m.toNat) where
  φ x := (x.toNat : ZMod m.toNat)
  small _ := True
  mid _ := True
  zero := by simp
  smallZero := trivial
  midZero := trivial
  acc s c _ _ := by
    refine ⟨trivial, ?_⟩
    rw [redMod_toNat hm, ZMod.natCast_mod, BitVec.toNat_add]
    have : ((2 ^ 64 : ℕ) : ZMod m.toNat) = 0 := (ZMod.natCast_eq_zero_iff _ _).2 hb
    have key := Nat.div_add_mod (s.toNat + c.toNat) (2 ^ 64)
    have key' : (((2 ^ 64 * ((s.toNat + c.toNat) / 2 ^ 64) + (s.toNat + c.toNat) % 2 ^ 64 : ℕ)) : ZMod m.toNat) =
      ((s.toNat + c.toNat : ℕ) : ZMod m.toNat) := by rw [key]
    rw [Nat.cast_add, Nat.cast_mul, this, zero_mul, zero_add] at key'
    rw [key']; push_cast; ring

theorem otMax_toNat {m : U64} (hm : m ≠ 0#64) : (otMax m).toNat = m.toNat - 1 := by
  have := toNat_pos_of_ne hm
  have := m.isLt
  rw [otMax, if_neg hm, BitVec.toNat_sub]; simp; omega

/-- `max - b + 1 = m - b` without wrap. -/
theorem otMax_sub {m b : U64} (hm : m ≠ 0#64) (hb : b.toNat ≤ m.toNat) :
    (otMax m - b + 1#64).toNat = m.toNat - b.toNat := by
  have h1 := otMax_toNat hm
  have := toNat_pos_of_ne hm
  have := m.isLt
  have := b.isLt
  rw [BitVec.toNat_add, BitVec.toNat_sub, h1]; simp; omega

theorem otMax_zero_sub (b : U64) : otMax 0#64 - b + 1#64 = -b := by
  have : BitVec.allOnes 64 = (-1 : U64) := by decide
  have h1 : (1#64 : U64) = 1 := rfl
  rw [otMax, if_pos rfl, this, h1]; ring

/-! ## One bit of an integer -/

theorem mod2_eq (x : U64) : x % 2#64 = b64 (x.toNat % 2 = 1) := by
  apply BitVec.eq_of_toNat_eq
  rw [BitVec.toNat_umod]
  unfold b64
  rcases Nat.mod_two_eq_zero_or_one x.toNat with h | h
  · simp [h]
  · simp [h]

theorem mod2_ne (x : U64) : decide (x % 2#64 ≠ 0#64) = decide (x.toNat % 2 = 1) := by
  rw [mod2_eq]
  by_cases h : x.toNat % 2 = 1 <;> simp [h, b64]

/-- The value of the bits `k, …` of the XOR. -/
theorem xor_step (x y : U64) (rem : ℕ) :
    (x ^^^ y).toNat % 2 ^ (rem + 1) =
      (if decide (x.toNat % 2 = 1) != decide (y.toNat % 2 = 1) then 1 else 0) +
        2 * (((x >>> 1) ^^^ (y >>> 1)).toNat % 2 ^ rem) := by
  have h1 : ((x >>> 1) ^^^ (y >>> 1)).toNat = (x ^^^ y).toNat / 2 := by
    rw [← BitVec.ushiftRight_xor_distrib, BitVec.toNat_ushiftRight, Nat.shiftRight_eq_div_pow, pow_one]
  have h2 : (x ^^^ y).toNat % 2 = if decide (x.toNat % 2 = 1) != decide (y.toNat % 2 = 1) then 1 else 0 := by
    rw [BitVec.toNat_xor]
    have := @Nat.xor_mod_two_eq x.toNat y.toNat
    rw [this]
    rcases Nat.mod_two_eq_zero_or_one x.toNat with h | h <;> rcases Nat.mod_two_eq_zero_or_one y.toNat with h' | h' <;>
      simp [h, h'] <;> omega
  rw [h1, ← h2, pow_succ, mul_comm (2 ^ rem) 2, Nat.mod_mul]

/-- What is needed of one bit position: the sender's contribution and the two messages. -/
structure CellOk {m : U64} {R : Type} [CommRing R] (I : Interp m R) (raw : U64) (k : ℕ) : Prop where
  minusB0 : ∀ b : Bool, I.mid (b64 b * (1#64 <<< k) + (otMax m - redMod m raw + 1#64))
  b0 : I.mid (redMod m raw)
  b1 : ∀ b : Bool, I.mid (redMod m (redMod m raw + if b64 b ≠ 0#64 then otMax m - 1#64 <<< k + 1#64 else 1#64 <<< k))
  eq0 : ∀ b : Bool, I.φ (b64 b * (1#64 <<< k) + (otMax m - redMod m raw + 1#64)) + I.φ (redMod m raw) =
    (if b then 1 else 0) * 2 ^ k
  eq1 : ∀ b : Bool, I.φ (b64 b * (1#64 <<< k) + (otMax m - redMod m raw + 1#64)) +
    I.φ (redMod m (redMod m raw + if b64 b ≠ 0#64 then otMax m - 1#64 <<< k + 1#64 else 1#64 <<< k)) =
    (if b then 0 else 1) * 2 ^ k

theorem shl_eq_pow (k : ℕ) : (1#64 <<< k : U64) = 2 ^ k := by
  have h : (2 : U64) ^ k = ((2 ^ k : ℕ) : U64) := by push_cast; rfl
  apply BitVec.eq_of_toNat_eq
  rw [h, BitVec.toNat_shiftLeft, Nat.shiftLeft_eq]
  show _ = (BitVec.ofNat 64 (2 ^ k)).toNat
  rw [BitVec.toNat_ofNat, BitVec.toNat_ofNat, Nat.mod_eq_of_lt (show 1 < 2 ^ 64 by norm_num), one_mul]

theorem cell0 (raw : U64) (k : ℕ) : CellOk interp0 raw k := by
  refine ⟨fun _ => trivial, trivial, fun _ => trivial, ?_, ?_⟩
  · intro b
    show b64 b * (1#64 <<< k) + (otMax 0#64 - redMod 0#64 raw + 1#64) + redMod 0#64 raw = _
    rw [otMax_zero_sub, shl_eq_pow]
    cases b <;> simp [b64]
  · intro b
    show b64 b * (1#64 <<< k) + (otMax 0#64 - redMod 0#64 raw + 1#64) +
      redMod 0#64 (redMod 0#64 raw + if b64 b ≠ 0#64 then otMax 0#64 - 1#64 <<< k + 1#64 else 1#64 <<< k) = _
    rw [otMax_zero_sub, otMax_zero_sub, shl_eq_pow]
    cases b <;> simp [b64, redMod]

theorem cellMod (m : U64) (hm : m ≠ 0#64) (hb : m.toNat ≤ 2 ^ 62) (raw : U64) (k : ℕ) (hk : 2 ^ k ≤ m.toNat) :
    CellOk (interpMod m hm hb) raw k := by
  have hb0 : (redMod m raw).toNat < m.toNat := redMod_lt hm
  have hk62 : k ≤ 62 := by
    by_contra h
    have : 2 ^ 63 ≤ 2 ^ k := Nat.pow_le_pow_right (by norm_num) (by omega)
    omega
  have hpow : (1#64 <<< k : U64).toNat = 2 ^ k := by
    rw [BitVec.toNat_shiftLeft, Nat.shiftLeft_eq]
    simp
    exact lt_of_le_of_lt (Nat.pow_le_pow_right (by norm_num) hk62) (by norm_num)
  have hmb : (otMax m - redMod m raw + 1#64).toNat = m.toNat - (redMod m raw).toNat :=
    otMax_sub hm (by omega)
  have hmp : (otMax m - 1#64 <<< k + 1#64).toNat = m.toNat - 2 ^ k := by
    rw [otMax_sub hm (by omega), hpow]
  have hs : ∀ b : Bool, (b64 b * (1#64 <<< k) + (otMax m - redMod m raw + 1#64)).toNat =
      (if b then 2 ^ k else 0) + (m.toNat - (redMod m raw).toNat) := by
    intro b
    rw [BitVec.toNat_add, hmb]
    cases b
    · simp [b64]; omega
    · simp only [b64, if_true, BitVec.one_mul, hpow]
      omega
  have h1 : ∀ b : Bool, (redMod m (redMod m raw + if b64 b ≠ 0#64 then otMax m - 1#64 <<< k + 1#64 else 1#64 <<< k)).toNat =
      ((redMod m raw).toNat + if b then m.toNat - 2 ^ k else 2 ^ k) % m.toNat := by
    intro b
    rw [redMod_toNat hm, BitVec.toNat_add]
    cases b
    · simp only [b64, Bool.false_eq_true, if_false, ne_eq, not_true_eq_false, hpow]
      rw [Nat.mod_eq_of_lt (a := _ + _) (by omega)]
    · simp only [b64, if_true, hmp, if_pos (show (1#64 : U64) ≠ 0#64 by decide)]
      rw [Nat.mod_eq_of_lt (a := _ + _) (by omega)]
  have z : ((m.toNat : ℕ) : ZMod m.toNat) = 0 := ZMod.natCast_self _
  refine ⟨?_, ?_, ?_, ?_, ?_⟩
  · intro b
    show (_ : U64).toNat ≤ _
    rw [hs]; cases b <;> simp <;> omega
  · show (_ : U64).toNat ≤ _
    omega
  · intro b
    show (_ : U64).toNat ≤ _
    rw [h1]
    have := Nat.mod_lt ((redMod m raw).toNat + if b then m.toNat - 2 ^ k else 2 ^ k) (toNat_pos_of_ne hm)
    omega
  · intro b
    show (((_ : U64).toNat : ℕ) : ZMod m.toNat) + (((_ : U64).toNat : ℕ) : ZMod m.toNat) = _
    rw [hs]
    rw [Nat.cast_add, Nat.cast_sub hb0.le, z]
    cases b <;> simp
  · intro b
    show (((_ : U64).toNat : ℕ) : ZMod m.toNat) + (((_ : U64).toNat : ℕ) : ZMod m.toNat) = _
    rw [hs, h1, ZMod.natCast_mod]
    rw [Nat.cast_add, Nat.cast_add, Nat.cast_sub hb0.le, z]
    cases b
    · simp
    · simp [Nat.cast_sub hk]

/-! ## Columns -/

theorem otChoose_cons (p : U64 × U64) (ps : List (U64 × U64)) (c : Bool) (cs : List Bool) :
    otChoose (p :: ps) (c :: cs) = (if c then p.2 else p.1) :: otChoose ps cs := rfl

theorem otChoose_append (ps qs : List (U64 × U64)) (cs ds : List Bool) (h : ps.length = cs.length) :
    otChoose (ps ++ qs) (cs ++ ds) = otChoose ps cs ++ otChoose qs ds := by
  unfold otChoose
  exact List.zipWith_append h

@[simp] theorem otChoose_length (ps : List (U64 × U64)) (cs : List Bool) (h : ps.length = cs.length) :
    (otChoose ps cs).length = cs.length := by
  simp [otChoose, h]

theorem valBits_length (w : ℕ) (v : U64) : (valBits w v).length = w := by
  induction w generalizing v with
  | zero => rfl
  | succ w ih => simp [valBits, ih]

theorem senderCol_length (m : U64) (raw : ℕ → U64) (k w : ℕ) (v acc : U64) : (senderCol m raw k w v acc).1.length = w := by
  induction w generalizing k v acc with
  | zero => rfl
  | succ w ih => simp [senderCol, ih]

/-- Sender accumulator + sum of received words, for one column from bit `k` on. -/
theorem col_sum {m : U64} {R : Type} [CommRing R] (I : Interp m R) (raw : ℕ → U64) (k w : ℕ) (x y acc : U64)
    (hs : I.small acc) (hc : ∀ j, k ≤ j → j < k + w → CellOk I (raw j) j) :
    I.small (senderCol m raw k w x acc).2 ∧
    (∀ r ∈ otChoose (senderCol m raw k w x acc).1 (valBits w y), I.mid r) ∧
    I.φ (senderCol m raw k w x acc).2 + ((otChoose (senderCol m raw k w x acc).1 (valBits w y)).map I.φ).sum =
      I.φ acc + 2 ^ k * ((((x ^^^ y).toNat % 2 ^ w : ℕ)) : R) := by
  induction w generalizing k x y acc with
  | zero => simp [senderCol, valBits, otChoose, Nat.mod_one, hs]
  | succ w ih =>
    have c := hc k (le_refl _) (by omega)
    have e : x % 2#64 = b64 (decide (x.toNat % 2 = 1)) := mod2_eq x
    set bx := decide (x.toNat % 2 = 1) with hbx
    set by' := decide (y.toNat % 2 = 1) with hby
    have a := I.acc acc _ hs (c.minusB0 bx)
    have h := ih (k + 1) (x >>> 1) (y >>> 1)
      (redMod m (acc + (b64 bx * (1#64 <<< k) + (otMax m - redMod m (raw k) + 1#64)))) a.1
      fun j h1 h2 => hc j (by omega) (by omega)
    simp only [senderCol, valBits, e, mod2_ne, ← hby, otChoose_cons]
    refine ⟨h.1, ?_, ?_⟩
    · intro r hr
      rcases List.mem_cons.1 hr with rfl | hr
      · clear_value bx by'
        cases by'
        · exact c.b0
        · exact c.b1 bx
      · exact h.2.1 r hr
    · rw [List.map_cons, List.sum_cons]
      have h3 := h.2.2
      rw [a.2] at h3
      rw [xor_step, ← hbx, ← hby]
      have e0 := c.eq0 bx
      have e1 := c.eq1 bx
      push_cast
      rw [pow_succ] at h3
      clear_value bx by'
      cases by' <;> cases bx <;> simp at e0 e1 h3 ⊢ <;> first
        | linear_combination h3 + e0
        | linear_combination h3 + e1

/-! ## Rows and matrices -/

/-- The low `w` bits of the XOR of two shares. -/
def xorLow (w : ℕ) (x y : U64) : ℕ := (x ^^^ y).toNat % 2 ^ w

/-- What a row should add up to. -/
def rowTarget (valid : Bool) (xs ys : List U64) (ws : List ℕ) : List ℕ :=
  List.zipWith (fun (q : U64 × U64) w => if valid then xorLow w q.1 q.2 else 0) (xs.zip ys) ws

theorem rowBits_cons (y : U64) (ys : List U64) (w : ℕ) (ws : List ℕ) :
    rowBits (y :: ys) (w :: ws) = valBits w y ++ rowBits ys ws := rfl

theorem rowBits_length (ys : List U64) (ws : List ℕ) (h : ys.length = ws.length) : (rowBits ys ws).length = ws.sum := by
  induction ws generalizing ys with
  | nil => cases ys <;> simp_all [rowBits]
  | cons w ws ih =>
    cases ys with
    | nil => simp at h
    | cons y ys =>
      rw [rowBits_cons, List.length_append, valBits_length, ih ys (by simpa using h), List.sum_cons]

theorem senderCols_length (m : U64) (raw : ℕ → ℕ → U64) (j : ℕ) (xs : List U64) (ws : List ℕ) (h : xs.length = ws.length) :
    (senderCols m raw j xs ws).1.length = ws.sum := by
  induction ws generalizing xs j with
  | nil => cases xs <;> simp_all [senderCols]
  | cons w ws ih =>
    cases xs with
    | nil => simp at h
    | cons x xs =>
      simp only [senderCols, List.length_append, senderCol_length, List.sum_cons]
      rw [ih (j + 1) xs (by simpa using h)]

theorem zeroCols_length (ws : List ℕ) : (zeroCols ws).length = ws.sum := by
  induction ws with
  | nil => rfl
  | cons w ws ih => simp [zeroCols] at ih ⊢

theorem senderRow_length (m : U64) (r : IntRow) (ws : List ℕ) (h : r.valid = true → r.vals.length = ws.length) :
    (senderRow m ws r).1.length = ws.sum := by
  unfold senderRow
  split
  · exact senderCols_length _ _ _ _ _ (h ‹_›)
  · exact zeroCols_length ws

section
variable {m : U64} {R : Type} [CommRing R] (I : Interp m R)

/-- What is shown of one row. -/
structure RowOk (I : Interp m R) (a b : List U64) (target : List ℕ) : Prop where
  sum : List.zipWith (fun s t => I.φ s + I.φ t) a b = List.map (Nat.cast : ℕ → R) target
  smallA : ∀ s ∈ a, I.small s
  smallB : ∀ s ∈ b, I.small s
  lenA : a.length = target.length
  lenB : b.length = target.length

theorem cols_ok (raw : ℕ → ℕ → U64) (j : ℕ) (xs ys : List U64) (ws : List ℕ) (rest : List U64)
    (hx : xs.length = ws.length) (hy : ys.length = ws.length) (hc : ∀ w ∈ ws, ∀ k < w, ∀ raw, CellOk I raw k) :
    (recvRow m ws (otChoose (senderCols m raw j xs ws).1 (rowBits ys ws) ++ rest)).2 = rest ∧
    RowOk I (senderCols m raw j xs ws).2 (recvRow m ws (otChoose (senderCols m raw j xs ws).1 (rowBits ys ws) ++ rest)).1
      (rowTarget true xs ys ws) := by
  induction ws generalizing xs ys j with
  | nil =>
    cases xs <;> cases ys <;> simp_all [recvRow, senderCols, rowTarget, otChoose, rowBits]
    constructor <;> simp
  | cons w ws ih =>
    cases xs with
    | nil => simp at hx
    | cons x xs =>
    cases ys with
    | nil => simp at hy
    | cons y ys =>
      have h := ih (j + 1) xs ys (by simpa using hx) (by simpa using hy) fun w hw => hc w (List.mem_cons_of_mem _ hw)
      have c := col_sum I (raw j) 0 w x y 0#64 I.smallZero fun k _ hk => hc w (List.mem_cons_self ..) k (by omega) _
      simp only [senderCols, rowBits_cons, recvRow]
      rw [otChoose_append _ _ _ _ (by rw [senderCol_length, valBits_length]), List.append_assoc]
      have hl : (otChoose (senderCol m (raw j) 0 w x 0#64).1 (valBits w y)).length = w := by
        rw [otChoose_length _ _ (by rw [senderCol_length, valBits_length]), valBits_length]
      rw [List.take_left' hl, List.drop_left' hl]
      refine ⟨h.1, ?_⟩
      have f := I.fold (otChoose (senderCol m (raw j) 0 w x 0#64).1 (valBits w y)) 0#64 I.smallZero c.2.1
      have e : I.φ (senderCol m (raw j) 0 w x 0#64).2 +
          I.φ ((otChoose (senderCol m (raw j) 0 w x 0#64).1 (valBits w y)).foldl (fun s x => redMod m (s + x)) 0#64) =
          ((xorLow w x y : ℕ) : R) := by
        rw [f.2, I.zero, zero_add, c.2.2, I.zero]; simp [xorLow]
      constructor
      · simp only [rowTarget, List.zip_cons_cons, List.zipWith_cons_cons, List.map_cons, if_true, e]
        congr 1
        exact h.2.sum
      · intro s hs
        rcases List.mem_cons.1 hs with rfl | hs
        · exact c.1
        · exact h.2.smallA s hs
      · intro s hs
        rcases List.mem_cons.1 hs with rfl | hs
        · exact f.1
        · exact h.2.smallB s hs
      · simp [h.2.lenA, rowTarget]
      · simp [h.2.lenB, rowTarget]

theorem choose_zero (n : ℕ) (cs : List Bool) (h : cs.length = n) :
    otChoose (List.replicate n (0#64, 0#64)) cs = List.replicate n 0#64 := by
  induction n generalizing cs with
  | zero => simp [otChoose]
  | succ n ih =>
    cases cs with
    | nil => simp at h
    | cons c cs =>
      rw [List.replicate_succ, otChoose_cons, ih cs (by simpa using h), List.replicate_succ]
      cases c <;> rfl

theorem zero_ok (xs ys : List U64) (ws : List ℕ) (rest : List U64) (hx : xs.length = ws.length)
    (hy : ys.length = ws.length) :
    (recvRow m ws (otChoose (zeroCols ws) (rowBits ys ws) ++ rest)).2 = rest ∧
    RowOk I (ws.map fun _ => 0#64) (recvRow m ws (otChoose (zeroCols ws) (rowBits ys ws) ++ rest)).1
      (rowTarget false xs ys ws) := by
  induction ws generalizing xs ys with
  | nil =>
    cases xs <;> cases ys <;> simp_all [recvRow, zeroCols, rowTarget, otChoose, rowBits]
    constructor <;> simp
  | cons w ws ih =>
    cases xs with
    | nil => simp at hx
    | cons x xs =>
    cases ys with
    | nil => simp at hy
    | cons y ys =>
      have h := ih xs ys (by simpa using hx) (by simpa using hy)
      have hz : zeroCols (w :: ws) = List.replicate w (0#64, 0#64) ++ zeroCols ws := rfl
      simp only [hz, rowBits_cons, recvRow]
      rw [otChoose_append _ _ _ _ (by simp [valBits_length]), List.append_assoc,
        choose_zero w (valBits w y) (valBits_length ..)]
      have hl : (List.replicate w (0#64 : U64)).length = w := by simp
      rw [List.take_left' hl, List.drop_left' hl]
      have f := I.fold (List.replicate w 0#64) 0#64 I.smallZero fun x hx => by
        rw [List.eq_of_mem_replicate hx]; exact I.midZero
      refine ⟨h.1, ?_⟩
      have e : I.φ 0#64 + I.φ ((List.replicate w (0#64 : U64)).foldl (fun s x => redMod m (s + x)) 0#64) = 0 := by
        rw [f.2, I.zero]; simp [I.zero]
      constructor
      · simp only [rowTarget, List.zip_cons_cons, List.zipWith_cons_cons, List.map_cons, if_false, e,
          Bool.false_eq_true]
        congr 1
        · simp
        · have := h.2.sum
          simp only [rowTarget, Bool.false_eq_true, if_false] at this
          exact this
      · intro s hs
        rcases List.mem_cons.1 hs with rfl | hs
        · exact I.smallZero
        · exact h.2.smallA s hs
      · intro s hs
        rcases List.mem_cons.1 hs with rfl | hs
        · exact f.1
        · exact h.2.smallB s hs
      · simpa [rowTarget] using h.2.lenA
      · simpa [rowTarget] using h.2.lenB

/-- All rows: the two results, entry by entry. -/
structure MatOk (I : Interp m R) (A B : List (List U64)) (T : List (List ℕ)) : Prop where
  rows : List.Forall₂ (fun (q : List U64 × List U64) t => RowOk I q.1 q.2 t) (A.zip B) T
  lenA : A.length = T.length
  lenB : B.length = T.length

/-- Targets of all rows. -/
def matTarget (rows : List IntRow) (ys : List (List U64)) (ws : List ℕ) : List (List ℕ) :=
  List.zipWith (fun r y => rowTarget r.valid r.vals y ws) rows ys

theorem rows_ok (rows : List IntRow) (ys : List (List U64)) (ws : List ℕ) (hn : rows.length = ys.length)
    (hx : ∀ r ∈ rows, r.vals.length = ws.length) (hy : ∀ y ∈ ys, y.length = ws.length)
    (hc : ∀ w ∈ ws, ∀ k < w, ∀ raw, CellOk I raw k) :
    MatOk I (rows.map fun r => (senderRow m ws r).2)
      (recvRows m ws ys.length (otChoose (rows.flatMap fun r => (senderRow m ws r).1) (ys.flatMap fun y => rowBits y ws)))
      (matTarget rows ys ws) := by
  induction rows generalizing ys with
  | nil =>
    cases ys with
    | nil => exact ⟨.nil, rfl, rfl⟩
    | cons y ys => simp at hn
  | cons r rows ih =>
    cases ys with
    | nil => simp at hn
    | cons y ys =>
      have hxr := hx r (List.mem_cons_self ..)
      have hyr := hy y (List.mem_cons_self ..)
      have h := ih ys (by simpa using hn) (fun r hr => hx r (List.mem_cons_of_mem _ hr))
        fun y h => hy y (List.mem_cons_of_mem _ h)
      simp only [List.flatMap_cons, List.map_cons, List.length_cons, recvRows]
      rw [otChoose_append _ _ _ _ (by rw [senderRow_length _ _ _ (fun _ => hxr), rowBits_length _ _ hyr])]
      set rest := otChoose (rows.flatMap fun r => (senderRow m ws r).1) (ys.flatMap fun y => rowBits y ws)
      have key : (recvRow m ws (otChoose (senderRow m ws r).1 (rowBits y ws) ++ rest)).2 = rest ∧
          RowOk I (senderRow m ws r).2 (recvRow m ws (otChoose (senderRow m ws r).1 (rowBits y ws) ++ rest)).1
            (rowTarget r.valid r.vals y ws) := by
        unfold senderRow
        cases hv : r.valid
        · exact zero_ok I r.vals y ws rest hxr hyr
        · exact cols_ok I r.raw 0 r.vals y ws rest hxr hyr hc
      rw [key.1]
      exact ⟨.cons key.2 h.rows, by simp [matTarget, h.lenA], by simp [matTarget, h.lenB]⟩

end

/-- The two programs meet in one OT. -/
theorem intsum_pair (m : U64) (ch : Bool) (rows : List IntRow) (ys : List (List U64)) (ws : List ℕ) (hn : rows.length = ys.length)
    (hx : ∀ r ∈ rows, r.vals.length = ws.length) (hy : ∀ y ∈ ys, y.length = ws.length) (hw : ∀ w ∈ ws, w ≤ 64) :
    Pair (intsumSender ch m ws rows) (intsumReceiver ch m ws ys) (rows.map fun r => (senderRow m ws r).2)
      (recvRows m ws ys.length (otChoose (rows.flatMap fun r => (senderRow m ws r).1)
        (ys.flatMap fun y => rowBits y ws))) := by
  unfold intsumSender intsumReceiver
  rw [if_pos, if_pos]
  · refine (Pair.ot01 _ _ _ ?_).bind (Pair.ret _ _)
    clear hw
    induction rows generalizing ys with
    | nil => cases ys <;> simp_all
    | cons r rows ih =>
      cases ys with
      | nil => simp at hn
      | cons y ys =>
        rw [List.flatMap_cons, List.flatMap_cons, List.length_append, List.length_append,
          senderRow_length _ _ _ (fun _ => hx r (List.mem_cons_self ..)), rowBits_length _ _ (hy y (List.mem_cons_self ..)),
          ih ys (by simpa using hn) (fun r hr => hx r (List.mem_cons_of_mem _ hr))
            fun y h => hy y (List.mem_cons_of_mem _ h)]
  · simpa using hy
  · simp only [List.all_eq_true, Bool.or_eq_true, Bool.not_eq_true', Bool.and_eq_true, decide_eq_true_eq]
    exact fun r hr => .inr ⟨hx r hr, hw⟩

end Verif

import Verif.ModelNet
import Mathlib.Tactic.Ring
import Mathlib.Tactic.IntervalCases
import Mathlib.Tactic.Linarith

/-! Helper lemmas: byte encodings and readers. -/

namespace Verif

/-! ### little-endian numbers -/

@[simp] theorem leBytes_length (n x : ℕ) : (leBytes n x).length = n := by
  induction n generalizing x with
  | zero => rfl
  | succ n ih => simp [leBytes, ih]

theorem leVal_leBytes (n x : ℕ) : leVal (leBytes n x) = x % 256 ^ n := by
  induction n generalizing x with
  | zero => simp [leBytes, leVal, Nat.mod_one]
  | succ n ih =>
    simp only [leBytes, leVal, ih, BitVec.toNat_ofNat]
    rw [show (256 : ℕ) ^ (n + 1) = 256 * 256 ^ n by rw [pow_succ, Nat.mul_comm], Nat.mod_mul]

theorem leVal_lt (bs : Bytes) : leVal bs < 256 ^ bs.length := by
  induction bs with
  | nil => simp [leVal]
  | cons b bs ih =>
    simp only [leVal, List.length_cons, pow_succ]
    have := b.isLt
    omega

theorem leBytes_leVal (bs : Bytes) : leBytes bs.length (leVal bs) = bs := by
  induction bs with
  | nil => rfl
  | cons b bs ih =>
    simp only [List.length_cons, leBytes, leVal]
    have hb := b.isLt
    have h1 : (b.toNat + 256 * leVal bs) / 256 = leVal bs := by omega
    rw [h1, ih]
    congr 1
    apply BitVec.eq_of_toNat_eq
    rw [BitVec.toNat_ofNat]; omega

theorem bswap32_bswap32 (x : BitVec 32) : bswap32 (bswap32 x) = x := by
  unfold bswap32
  apply BitVec.eq_of_toNat_eq
  have h := leVal_lt (leBytes 4 x.toNat).reverse
  have hl : (leBytes 4 x.toNat).reverse.length = 4 := by simp
  rw [hl] at h
  have hx := x.isLt
  rw [BitVec.toNat_ofNat, BitVec.toNat_ofNat]
  have e1 : leVal (leBytes 4 x.toNat).reverse % 2 ^ 32 = leVal (leBytes 4 x.toNat).reverse :=
    Nat.mod_eq_of_lt (by simpa using h)
  rw [e1]
  have e2 := leBytes_leVal (leBytes 4 x.toNat).reverse
  rw [hl] at e2
  rw [e2, List.reverse_reverse, leVal_leBytes]
  norm_num
  omega

theorem htonll_toNat (x : U64) :
    (htonll x).toNat =
      2 ^ 32 * (bswap32 (BitVec.ofNat 32 x.toNat)).toNat + (bswap32 (BitVec.ofNat 32 (x.toNat / 2 ^ 32))).toNat := by
  have hlo : (x &&& 0xFFFFFFFF#64).setWidth 32 = BitVec.ofNat 32 x.toNat := by
    apply BitVec.eq_of_toNat_eq
    rw [BitVec.toNat_setWidth, BitVec.toNat_and]
    have : 0xFFFFFFFF % 2 ^ 64 = 2 ^ 32 - 1 := by norm_num
    rw [BitVec.toNat_ofNat, this, Nat.and_two_pow_sub_one_eq_mod]; simp
  have hhi : (x >>> 32).setWidth 32 = BitVec.ofNat 32 (x.toNat / 2 ^ 32) := by
    apply BitVec.eq_of_toNat_eq
    rw [BitVec.toNat_setWidth, BitVec.toNat_ushiftRight, BitVec.toNat_ofNat, Nat.shiftRight_eq_div_pow]
  unfold htonll
  rw [hlo, hhi]
  generalize bswap32 (BitVec.ofNat 32 x.toNat) = a
  generalize bswap32 (BitVec.ofNat 32 (x.toNat / 2 ^ 32)) = b
  have ha := a.isLt
  have hb := b.isLt
  rw [BitVec.toNat_or, BitVec.toNat_shiftLeft, BitVec.toNat_setWidth, BitVec.toNat_setWidth,
    Nat.mod_eq_of_lt (by omega : a.toNat < 2 ^ 64), Nat.mod_eq_of_lt (by omega : b.toNat < 2 ^ 64),
    Nat.shiftLeft_eq, Nat.mod_eq_of_lt (by omega), Nat.mul_comm a.toNat, Nat.two_pow_add_eq_or_of_lt hb]

theorem htonll_htonll (x : U64) : htonll (htonll x) = x := by
  apply BitVec.eq_of_toNat_eq
  rw [htonll_toNat]
  have h1 : BitVec.ofNat 32 (htonll x).toNat = bswap32 (BitVec.ofNat 32 (x.toNat / 2 ^ 32)) := by
    apply BitVec.eq_of_toNat_eq
    rw [BitVec.toNat_ofNat, htonll_toNat, Nat.mul_add_mod, Nat.mod_eq_of_lt (BitVec.isLt _)]
  have h2 : BitVec.ofNat 32 ((htonll x).toNat / 2 ^ 32) = bswap32 (BitVec.ofNat 32 x.toNat) := by
    apply BitVec.eq_of_toNat_eq
    rw [BitVec.toNat_ofNat, htonll_toNat, Nat.mul_add_div (by norm_num), Nat.div_eq_of_lt (BitVec.isLt _),
      Nat.add_zero, Nat.mod_eq_of_lt (BitVec.isLt _)]
  rw [h1, h2, bswap32_bswap32, bswap32_bswap32, BitVec.toNat_ofNat, BitVec.toNat_ofNat]
  have := x.isLt
  omega

/-! ### readers -/

theorem Rd.run_bind {α β : Type} (r : Rd α) (f : α → Rd β) (s : Bytes) :
    (r.bind f).run s = match r.run s with
      | none => none
      | some (a, s') => (f a).run s' := by
  induction r generalizing s with
  | ret a => rfl
  | bad => rfl
  | get n k ih =>
    simp only [Rd.bind, Rd.run]
    split
    · rfl
    · rw [ih]

theorem Rd.bind_assoc {α β γ : Type} (r : Rd α) (f : α → Rd β) (g : β → Rd γ) :
    (r.bind f).bind g = r.bind (fun a => (f a).bind g) := by
  induction r with
  | ret a => rfl
  | bad => rfl
  | get n k ih => simp only [Rd.bind, ih]

/-- Reader `r` consumes exactly `bs` and returns `a`, whatever follows in the stream. -/
def Reads {α : Type} (r : Rd α) (bs : Bytes) (a : α) : Prop := ∀ rest, r.run (bs ++ rest) = some (a, rest)

theorem Reads.ret {α : Type} (a : α) : Reads (Rd.ret a) [] a := fun _ => rfl

theorem Reads.bind {α β : Type} {r : Rd α} {f : α → Rd β} {bs bs' : Bytes} {a : α} {b : β}
    (h1 : Reads r bs a) (h2 : Reads (f a) bs' b) : Reads (r.bind f) (bs ++ bs') b := by
  intro rest
  rw [Rd.run_bind, List.append_assoc, h1]
  exact h2 rest

theorem Reads.bind' {α β : Type} {r : Rd α} {f : α → Rd β} {bs bs' bs'' : Bytes} {a : α} {b : β}
    (h1 : Reads r bs a) (h2 : Reads (f a) bs' b) (h : bs ++ bs' = bs'') : Reads (r.bind f) bs'' b := by
  subst h; exact h1.bind h2

theorem Reads.bindRet {α β : Type} {r : Rd α} {f : α → β} {bs : Bytes} {a : α}
    (h1 : Reads r bs a) : Reads (r.bind fun a => Rd.ret (f a)) bs (f a) := by
  have := Reads.bind (f := fun a => Rd.ret (f a)) h1 (Reads.ret (f a))
  simpa using this

theorem Reads.get {α : Type} {n : ℕ} {k : Bytes → Rd α} {bs : Bytes} {a : α} (hl : bs.length = n)
    (h : Reads (k bs) [] a) : Reads (Rd.get n k) bs a := by
  intro rest
  have hn : ¬ (bs ++ rest).length < n := by simp [hl]
  simp only [Rd.run, if_neg hn]
  have h1 : (bs ++ rest).take n = bs := by rw [← hl]; simp
  have h2 : (bs ++ rest).drop n = rest := by rw [← hl]; simp
  rw [h1, h2]
  simpa using h rest

theorem Reads.getRet {α : Type} {n : ℕ} {k : Bytes → α} {bs : Bytes} (hl : bs.length = n) :
    Reads (Rd.get n fun b => Rd.ret (k b)) bs (k bs) :=
  Reads.get hl (Reads.ret _)

theorem reads_rep {α : Type} {r : Rd α} {enc : α → Bytes} (h : ∀ a, Reads r (enc a) a) (as : List α) :
    Reads (r.rep as.length) (as.flatMap enc) as := by
  induction as with
  | nil => exact Reads.ret []
  | cons a as ih =>
    simp only [List.length_cons, Rd.rep, List.flatMap_cons]
    exact (h a).bind (ih.bindRet (f := fun as => a :: as))

/-! ### scalars -/

theorem reads_bool (b : Bool) : Reads rdBool (encBool b) b := by
  refine Reads.get rfl ?_
  cases b <;> exact Reads.ret _

theorem packByte_bit (x : List Bool) (j t : ℕ) (ht : t < 8) : (packByte x j).getLsbD t = x.getD (8 * j + t) false := by
  have key : ∀ m, ((List.range m).foldl
      (fun acc i => if i / 8 = j ∧ x.getD i false = true then acc ^^^ (1#8 <<< (i % 8)) else acc) 0#8).getLsbD t
      = (decide (8 * j + t < m) && x.getD (8 * j + t) false) := by
    intro m
    induction m with
    | zero => simp
    | succ m ih =>
      rw [List.range_succ, List.foldl_append, List.foldl_cons, List.foldl_nil]
      by_cases hc : m / 8 = j ∧ x.getD m false = true
      · rw [if_pos hc, BitVec.getLsbD_xor, ih]
        have hbit : (1#8 <<< (m % 8)).getLsbD t = decide (t = m % 8) := by
          have h8 : m % 8 < 8 := Nat.mod_lt _ (by norm_num)
          generalize m % 8 = u at h8
          interval_cases u <;> interval_cases t <;> rfl
        rw [hbit]
        by_cases ht' : t = m % 8
        · have hm : 8 * j + t = m := by omega
          have : ¬ (8 * j + t < m) := by omega
          have h3 : 8 * j + t < m + 1 := by omega
          rw [decide_eq_false this, decide_eq_true ht', decide_eq_true h3, hm, hc.2]; rfl
        · have : (8 * j + t < m) ↔ (8 * j + t < m + 1) := by omega
          rw [decide_eq_false ht', Bool.xor_false]
          simp only [this]
      · rw [if_neg hc, ih]
        by_cases hm : 8 * j + t = m
        · have hj : m / 8 = j := by omega
          have : x.getD m false = false := by
            cases hx : x.getD m false with
            | false => rfl
            | true => exact absurd ⟨hj, hx⟩ hc
          rw [hm, this]; simp
        · have : (8 * j + t < m) ↔ (8 * j + t < m + 1) := by omega
          simp only [this]
  unfold packByte
  rw [key]
  by_cases h : 8 * j + t < x.length
  · simp [h]
  · rw [decide_eq_false h, List.getD_eq_default _ _ (by omega)]; rfl

theorem and_bit_ne (b : Byte) (t : ℕ) (ht : t < 8) : decide ((b &&& (1#8 <<< t)) ≠ 0#8) = b.getLsbD t := by
  have hs : ∀ i, i < 8 → (1#8 <<< t).getLsbD i = decide (i = t) := by
    intro i hi
    interval_cases t <;> interval_cases i <;> rfl
  cases hb : b.getLsbD t with
  | true =>
    rw [decide_eq_true]
    intro h
    have := congrArg (fun v => v.getLsbD t) h
    simp [hs t ht, hb] at this
  | false =>
    apply decide_eq_false
    intro h
    apply h
    apply BitVec.eq_of_getLsbD_eq
    intro i hi
    rw [BitVec.getLsbD_and, hs i hi]
    by_cases e : i = t
    · subst e; simp [hb]
    · simp [e]

@[simp] theorem encBools_length (x : List Bool) : (encBools x).length = (x.length + 7) / 8 := by simp [encBools]

theorem unpack_pack (x : List Bool) (i : ℕ) (hi : i < x.length) : unpackBit (encBools x) i = x.getD i false := by
  unfold unpackBit
  rw [and_bit_ne _ _ (Nat.mod_lt _ (by norm_num))]
  have h : i / 8 < (x.length + 7) / 8 := by omega
  have : (encBools x).getD (i / 8) 0#8 = packByte x (i / 8) := by
    unfold encBools
    rw [List.getD_eq_getElem _ _ (by simpa using h)]; simp
  rw [this, packByte_bit _ _ _ (Nat.mod_lt _ (by norm_num))]
  congr 1; omega

theorem unpack_list (x : List Bool) : (List.range x.length).map (unpackBit (encBools x)) = x := by
  apply List.ext_getElem
  · simp
  · intro i h1 h2
    rw [List.getElem_map, List.getElem_range, unpack_pack x i h2, List.getD_eq_getElem _ _ h2]

theorem reads_bools (x : List Bool) : Reads (rdBools x.length) (encBools x) x := by
  have := Reads.getRet (n := (x.length + 7) / 8) (k := fun buf => (List.range x.length).map (unpackBit buf))
    (bs := encBools x) (by simp)
  rw [unpack_list] at this
  exact this

theorem reads_u32 (x : BitVec 32) : Reads rdU32 (encU32 x) x := by
  have := Reads.getRet (n := 4) (k := fun bs => bswap32 (BitVec.ofNat 32 (leVal bs))) (bs := encU32 x) (by simp [encU32])
  have e : bswap32 (BitVec.ofNat 32 (leVal (encU32 x))) = x := by
    unfold encU32
    rw [leVal_leBytes]
    have h : (bswap32 x).toNat % 256 ^ 4 = (bswap32 x).toNat := Nat.mod_eq_of_lt (by simpa using (bswap32 x).isLt)
    rw [h, BitVec.ofNat_toNat, BitVec.setWidth_eq, bswap32_bswap32]
  rw [e] at this
  exact this

theorem word_roundtrip (x : U64) : BitVec.ofNat 64 (leVal (leBytes 8 x.toNat)) = x := by
  rw [leVal_leBytes]
  have h : x.toNat % 256 ^ 8 = x.toNat := Nat.mod_eq_of_lt (by simpa using x.isLt)
  rw [h]; simp

theorem reads_u64 (x : U64) : Reads rdU64 (encU64 x) x := by
  have := Reads.getRet (n := 8) (k := fun bs => htonll (BitVec.ofNat 64 (leVal bs))) (bs := encU64 x) (by simp [encU64])
  have e : htonll (BitVec.ofNat 64 (leVal (encU64 x))) = x := by
    unfold encU64
    rw [word_roundtrip, htonll_htonll]
  rw [e] at this
  exact this

theorem reads_size (x : U64) : Reads rdSize (encSize x) (BitVec.ofNat 64 (x.toNat % 2 ^ 32)) := by
  have := Reads.getRet (n := 8)
    (k := fun bs => (bswap32 ((BitVec.ofNat 64 (leVal bs)).setWidth 32)).setWidth 64) (bs := encSize x) (by simp [encSize])
  have e : (bswap32 ((BitVec.ofNat 64 (leVal (encSize x))).setWidth 32)).setWidth 64 = BitVec.ofNat 64 (x.toNat % 2 ^ 32) := by
    unfold encSize
    rw [word_roundtrip]
    rw [BitVec.setWidth_setWidth_of_le _ (by norm_num), BitVec.setWidth_eq, bswap32_bswap32]
    apply BitVec.eq_of_toNat_eq
    simp
  rw [e] at this
  exact this

@[simp] theorem rawWord_length (x : U64) : (rawWord x).length = 8 := by simp [rawWord]

@[simp] theorem encWords_length (xs : List U64) : (encWords xs).length = 8 * xs.length := by
  induction xs with
  | nil => rfl
  | cons x xs ih => simp [encWords] at ih ⊢; omega

theorem wordsOf_encWords (xs : List U64) : wordsOf xs.length (encWords xs) = xs := by
  induction xs with
  | nil => rfl
  | cons x xs ih =>
    have h : encWords (x :: xs) = rawWord x ++ encWords xs := rfl
    simp only [List.length_cons, wordsOf, h]
    rw [List.take_left' (by simp), List.drop_left' (by simp), ih]
    unfold rawWord
    rw [word_roundtrip]

theorem reads_words (xs : List U64) : Reads (rdWords xs.length) (encWords xs) xs := by
  have := Reads.getRet (n := 8 * xs.length) (k := fun bs => wordsOf xs.length bs) (bs := encWords xs) (by simp)
  rw [wordsOf_encWords] at this
  exact this

/-! ### field elements -/

/-- A number that fits one limb. -/
def Fits (x : ℤ) : Prop := 0 ≤ x ∧ x < 2 ^ 64

/-- Total version of the encoding of one field element. -/
def fmpzBytes (x : ℤ) : Bytes := leBytes 8 x.toNat

@[simp] theorem fmpzBytes_length (x : ℤ) : (fmpzBytes x).length = 8 := by simp [fmpzBytes]

theorem encFmpz_of_fits {x : ℤ} (h : Fits x) : encFmpz x = some (fmpzBytes x) := by
  unfold encFmpz fmpzBytes
  obtain ⟨h0, h1⟩ := h
  have : x.natAbs = x.toNat := by omega
  rw [if_pos (by omega), this]

theorem reads_fmpz {x : ℤ} (h : Fits x) : Reads rdFmpz (fmpzBytes x) x := by
  have := Reads.getRet (n := 8) (k := fun bs => (leVal bs : ℤ)) (bs := fmpzBytes x) (by simp)
  have e : (leVal (fmpzBytes x) : ℤ) = x := by
    obtain ⟨h0, h1⟩ := h
    unfold fmpzBytes
    rw [leVal_leBytes]
    norm_num
    omega
  rw [e] at this
  exact this

theorem encAll_of_fits {xs : List ℤ} (h : ∀ x ∈ xs, Fits x) : encAll encFmpz xs = some (xs.flatMap fmpzBytes) := by
  induction xs with
  | nil => rfl
  | cons x xs ih =>
    simp only [encAll, encFmpz_of_fits (h x (List.mem_cons_self ..)),
      ih (fun y hy => h y (List.mem_cons_of_mem _ hy)), List.flatMap_cons]

/-- Chunking does not change the bytes. -/
theorem encFmpzs_of_fits (xs : List ℤ) (h : ∀ x ∈ xs, Fits x) : encFmpzs xs = some (xs.flatMap fmpzBytes) := by
  induction hn : xs.length using Nat.strong_induction_on generalizing xs with
  | _ n ih =>
    rw [encFmpzs]
    split
    · next hlt =>
      have hpos := maxFmpzBatch_pos
      have h1 : encAll encFmpz (xs.take maxFmpzBatch) = some ((xs.take maxFmpzBatch).flatMap fmpzBytes) :=
        encAll_of_fits (fun x hx => h x (List.mem_of_mem_take hx))
      have h2 := ih (xs.drop maxFmpzBatch).length (by simp; omega) (xs.drop maxFmpzBatch)
        (fun x hx => h x (List.mem_of_mem_drop hx)) rfl
      rw [h1, h2]
      simp only [← List.flatMap_append, List.take_append_drop]
    · exact encAll_of_fits h

theorem flatMap_fmpz_length (xs : List ℤ) : (xs.flatMap fmpzBytes).length = 8 * xs.length := by
  induction xs with
  | nil => rfl
  | cons x xs ih => simp at ih ⊢; omega

theorem fmpzsOf_bytes (xs : List ℤ) (h : ∀ x ∈ xs, Fits x) (rest : Bytes) :
    fmpzsOf xs.length (xs.flatMap fmpzBytes ++ rest) = xs := by
  induction xs with
  | nil => rfl
  | cons x xs ih =>
    have ihh := ih (fun y hy => h y (List.mem_cons_of_mem _ hy))
    unfold fmpzsOf at ihh ⊢
    simp only [List.length_cons, wordsOf, List.flatMap_cons, List.map_cons, List.append_assoc]
    rw [List.take_left' (by simp), List.drop_left' (by simp), ihh]
    congr 1
    obtain ⟨h0, h1⟩ := h x (List.mem_cons_self ..)
    unfold fmpzBytes
    rw [leVal_leBytes, BitVec.toNat_ofNat]
    norm_num
    omega

theorem rdFmpzs_eq (n : ℕ) : rdFmpzs n = if maxFmpzBatch < n then
    .get (8 * maxFmpzBatch) fun bs => (rdFmpzs (n - maxFmpzBatch)).bind fun r => .ret (fmpzsOf maxFmpzBatch bs ++ r)
  else .get (8 * n) fun bs => .ret (fmpzsOf n bs) := by
  rw [rdFmpzs]; rfl
private theorem reads_fmpzs_aux (M : ℕ) (hpos : 0 < M) (f : ℕ → Rd (List ℤ)) (hf : ∀ n, f n = if M < n then
    .get (8 * M) fun bs => (f (n - M)).bind fun r => .ret (fmpzsOf M bs ++ r)
  else .get (8 * n) fun bs => .ret (fmpzsOf n bs)) (xs : List ℤ) (h : ∀ x ∈ xs, Fits x) : Reads (f xs.length) (xs.flatMap fmpzBytes) xs := by
  induction hn : xs.length using Nat.strong_induction_on generalizing xs with
  | _ n ih =>
    subst hn
    rw [hf]
    split
    · next hlt =>
      have h2 := ih (xs.drop M).length (by simp; omega) (xs.drop M)
        (fun x hx => h x (List.mem_of_mem_drop hx)) rfl
      have hl : (xs.take M).length = M := by simp; omega
      have h1 := fmpzsOf_bytes (xs.take M) (fun x hx => h x (List.mem_of_mem_take hx)) []
      rw [hl, List.append_nil] at h1
      have hlen : (List.drop M xs).length = xs.length - M := by simp
      rw [hlen] at h2
      have h3 := h2.bindRet (f := fun r => fmpzsOf M ((xs.take M).flatMap fmpzBytes) ++ r)
      rw [h1, List.take_append_drop] at h3
      intro rest
      have hb : xs.flatMap fmpzBytes =
          (xs.take M).flatMap fmpzBytes ++ (xs.drop M).flatMap fmpzBytes := by
        rw [← List.flatMap_append, List.take_append_drop]
      rw [hb, List.append_assoc]
      have hlb : ((xs.take M).flatMap fmpzBytes).length = 8 * M := by
        rw [flatMap_fmpz_length, hl]
      simp only [Rd.run]
      rw [if_neg (by rw [List.length_append, hlb]; omega), List.take_left' hlb, List.drop_left' hlb]
      simp only [h1]
      exact h3 rest
    · have h1 := fmpzsOf_bytes xs h []
      rw [List.append_nil] at h1
      have := Reads.getRet (n := 8 * xs.length) (k := fun bs => fmpzsOf xs.length bs) (bs := xs.flatMap fmpzBytes)
        (flatMap_fmpz_length xs)
      rw [h1] at this
      exact this
theorem reads_fmpzs (xs : List ℤ) (h : ∀ x ∈ xs, Fits x) : Reads (rdFmpzs xs.length) (xs.flatMap fmpzBytes) xs := 
  reads_fmpzs_aux maxFmpzBatch maxFmpzBatch_pos rdFmpzs rdFmpzs_eq xs h

theorem reads_fmpz_rep (xs : List ℤ) (h : ∀ x ∈ xs, Fits x) :
    Reads (rdFmpz.rep xs.length) (xs.flatMap fmpzBytes) xs := by
  induction xs with
  | nil => exact Reads.ret []
  | cons a as ih =>
    simp only [List.length_cons, Rd.rep, List.flatMap_cons]
    exact (reads_fmpz (h a (List.mem_cons_self ..))).bind
      ((ih (fun y hy => h y (List.mem_cons_of_mem _ hy))).bindRet (f := fun as => a :: as))

end Verif

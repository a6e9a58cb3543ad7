import Verif.ModelArgs
import Verif.PropsUpload
import Mathlib.Data.List.TakeWhile

/-!
# C70: the client does what its command line says
-/

namespace Verif

/-- The string is a decimal number with the value `n` (leading zeros allowed). -/
def Writes (s : String) (n : ℕ) : Prop :=
  s.toList ≠ [] ∧ (∀ c ∈ s.toList, '0' ≤ c ∧ c ≤ '9') ∧ n = Nat.ofDigits 10 ((s.toList.map fun c => c.val.toNat - 48).reverse)

theorem digit_iff (c : Char) : isDigitC c = true ↔ '0' ≤ c ∧ c ≤ '9' := by
  unfold isDigitC
  rw [Bool.and_eq_true, decide_eq_true_iff, decide_eq_true_iff]
  exact Iff.rfl

theorem foldl_digits : ∀ (s : List Char) (v : ℕ), s.foldl (fun v c => 10 * v + (c.val.toNat - 48)) v =
    Nat.ofDigits 10 ((s.map fun c => c.val.toNat - 48).reverse) + v * 10 ^ s.length
  | [], v => by simp
  | c :: s, v => by
    rw [List.foldl_cons, foldl_digits s, List.map_cons, List.reverse_cons, Nat.ofDigits_append, List.length_cons]
    simp only [List.length_reverse, List.length_map, Nat.ofDigits_singleton]
    ring

/-- C70: `atoi` returns the value of a decimal number that is an `int`. -/
theorem C70_atoi {s : String} {n : ℕ} (h : Writes s n) (hn : n < 2 ^ 31) : atoi s = some (BitVec.ofNat 32 n) := by
  obtain ⟨h1, h2, h3⟩ := h
  obtain ⟨c, r, e⟩ := List.exists_cons_of_ne_nil h1
  have hc := (digit_iff c).2 (h2 c (by rw [e]; exact List.mem_cons_self ..))
  have hsp : isSpaceC c = false := by
    unfold isDigitC at hc
    unfold isSpaceC
    rw [Bool.and_eq_true, decide_eq_true_iff, decide_eq_true_iff] at hc
    rw [Bool.or_eq_false_iff, Bool.and_eq_false_iff, decide_eq_false_iff_not, decide_eq_false_iff_not, decide_eq_false_iff_not]
    have a := UInt32.le_iff_toNat_le.1 hc.1
    have b : (48 : UInt32).toNat = 48 := rfl
    refine ⟨fun h => ?_, .inr fun h => ?_⟩
    · rw [h] at a; exact absurd a (by decide)
    · have := UInt32.le_iff_toNat_le.1 h
      have b' : (13 : UInt32).toNat = 13 := rfl
      omega
  have hval : leadingNat s.toList = n := by
    unfold leadingNat
    rw [List.takeWhile_eq_self_iff.2 fun c hc => (digit_iff c).2 (h2 c hc), foldl_digits, h3]
    simp
  have hd : s.toList.dropWhile isSpaceC = s.toList := by
    rw [e, List.dropWhile_cons_of_neg (by rw [hsp]; decide)]
  unfold atoi
  rw [hd]
  have hm : signedInt s.toList = (n : ℤ) := by
    rw [← hval]
    unfold signedInt
    split
    · next r h => exact absurd (h2 '-' (by rw [h]; exact List.mem_cons_self ..)) (by decide)
    · next r h => exact absurd (h2 '+' (by rw [h]; exact List.mem_cons_self ..)) (by decide)
    · rfl
  simp only [hm]
  rw [if_pos (by omega), BitVec.ofInt_natCast]

/-- C70: a minus sign gives the negative value. -/
theorem C70_atoi_neg {s t : String} {n : ℕ} (h : Writes s n) (ht : t.toList = '-' :: s.toList) (hn : n ≤ 2 ^ 31) :
    atoi t = some (BitVec.ofInt 32 (-(n : ℤ))) := by
  obtain ⟨h1, h2, h3⟩ := h
  have hval : leadingNat s.toList = n := by
    unfold leadingNat
    rw [List.takeWhile_eq_self_iff.2 fun c hc => (digit_iff c).2 (h2 c hc), foldl_digits, h3]
    simp
  unfold atoi
  have hd : t.toList.dropWhile isSpaceC = '-' :: s.toList := by rw [ht]; rfl
  rw [hd]
  simp only [signedInt, hval]
  rw [if_pos (by omega)]

/-- White space for `isspace` in the "C" locale. -/
def White (c : Char) : Prop := c.val = 32 ∨ c.val = 9 ∨ c.val = 10 ∨ c.val = 11 ∨ c.val = 12 ∨ c.val = 13

theorem white_iff (c : Char) : isSpaceC c = true ↔ White c := by
  unfold isSpaceC White
  rw [Bool.or_eq_true, Bool.and_eq_true, decide_eq_true_iff, decide_eq_true_iff, decide_eq_true_iff]
  have h9 : (9 : UInt32).toNat = 9 := rfl
  have h13 : (13 : UInt32).toNat = 13 := rfl
  rw [UInt32.le_iff_toNat_le, UInt32.le_iff_toNat_le, h9, h13]
  simp only [← UInt32.toNat_inj]
  have h10 : (10 : UInt32).toNat = 10 := rfl
  have h11 : (11 : UInt32).toNat = 11 := rfl
  have h12 : (12 : UInt32).toNat = 12 := rfl
  have h32 : (32 : UInt32).toNat = 32 := rfl
  rw [h9, h10, h11, h12, h13, h32]
  omega

theorem digit_not_white {c : Char} (h : isDigitC c = true) : isSpaceC c = false := by
  rw [digit_iff] at h
  rw [Bool.eq_false_iff, Ne, white_iff]
  have a := UInt32.le_iff_toNat_le.1 h.1
  have b : ('0' : Char).val.toNat = 48 := rfl
  rintro (h | h | h | h | h | h)
  all_goals rw [h] at a; exact absurd a (by decide)

/-- C70: `atoi` in general: white space, a sign or none, digits, and whatever follows the digits. -/
theorem C70_atoi_text {t : String} {ws sg ds rest : List Char} (ht : t.toList = ws ++ (sg ++ (ds ++ rest))) (hw : ∀ c ∈ ws, White c)
    (hs : sg = [] ∨ sg = ['+'] ∨ sg = ['-']) (hne : ds ≠ []) (hd : ∀ c ∈ ds, '0' ≤ c ∧ c ≤ '9')
    (hr : ∀ c ∈ rest.head?, ¬ ('0' ≤ c ∧ c ≤ '9')) :
    let v : ℤ := (if sg = ['-'] then -1 else 1) * (Nat.ofDigits 10 ((ds.map fun c => c.val.toNat - 48).reverse) : ℕ)
    (-2 ^ 31 ≤ v → v < 2 ^ 31 → atoi t = some (BitVec.ofInt 32 v)) ∧ (v < -2 ^ 31 ∨ 2 ^ 31 ≤ v → atoi t = none) := by
  intro v
  have hd' : ∀ c ∈ ds, isDigitC c = true := fun c hc => (digit_iff c).2 (hd c hc)
  obtain ⟨c, r, e⟩ := List.exists_cons_of_ne_nil hne
  have hc := hd' c (by rw [e]; exact List.mem_cons_self ..)
  have hlead : leadingNat (ds ++ rest) = Nat.ofDigits 10 ((ds.map fun c => c.val.toNat - 48).reverse) := by
    unfold leadingNat
    have : (ds ++ rest).takeWhile isDigitC = ds := by
      rw [List.takeWhile_append_of_pos hd']
      cases rest with
      | nil => simp
      | cons z zs =>
        have hz : ¬ isDigitC z = true := fun h => hr z (by simp) ((digit_iff z).1 h)
        rw [List.takeWhile_cons_of_neg hz, List.append_nil]
    rw [this, foldl_digits]
    simp
  have hdrop : t.toList.dropWhile isSpaceC = sg ++ (ds ++ rest) := by
    rw [ht, List.dropWhile_append_of_pos fun c hc => (white_iff c).2 (hw c hc)]
    rcases hs with rfl | rfl | rfl
    · rw [List.nil_append, e, List.cons_append, List.dropWhile_cons_of_neg (by rw [digit_not_white hc]; decide)]
    · rfl
    · rfl
  have hv : signedInt (sg ++ (ds ++ rest)) = v := by
    rcases hs with rfl | rfl | rfl
    · have : signedInt (ds ++ rest) = leadingNat (ds ++ rest) := by
        rw [e, List.cons_append]
        unfold signedInt
        split
        · next h => rw [(List.cons.inj h).1] at hc; exact absurd hc (by decide)
        · next h => rw [(List.cons.inj h).1] at hc; exact absurd hc (by decide)
        · rfl
      rw [List.nil_append, this, hlead]
      simp [v]
    · show ((leadingNat (ds ++ rest) : ℕ) : ℤ) = v
      rw [hlead]; simp [v]
    · show -((leadingNat (ds ++ rest) : ℕ) : ℤ) = v
      rw [hlead]; simp [v]
  unfold atoi
  rw [hdrop]
  simp only [hv]
  exact ⟨fun h1 h2 => if_pos ⟨h1, h2⟩, fun h => if_neg fun h' => by omega⟩

example : ∃ ws sg ds rest : List Char, (" +7x" : String).toList = ws ++ (sg ++ (ds ++ rest)) ∧ (∀ c ∈ ws, White c) ∧ sg = ['+'] ∧ ds = ['7'] ∧ rest = ['x'] :=
  ⟨[' '], ['+'], ['7'], ['x'], by decide, by intro c hc; rw [List.mem_singleton.1 hc]; exact .inl rfl, rfl, rfl, rfl⟩

/-- The operations of the client. -/
inductive OpName where
  | bitSum | intSum | and | or | max | min | var | stddev | linReg | freq

/-- The fourth argument. -/
def OpName.arg : OpName → String
  | .bitSum => "BITSUM" | .intSum => "INTSUM" | .and => "ANDOP" | .or => "OROP" | .max => "MAXOP" | .min => "MINOP" | .var => "VAROP"
  | .stddev => "STDDEVOP" | .linReg => "LINREGOP" | .freq => "FREQOP"

/-- The largest width the operation takes. -/
def OpName.widest : OpName → ℕ
  | .var | .stddev | .linReg => 31
  | .freq => 59
  | _ => 63

/-- What the client does with the result of an operation: the first byte string goes to server 0, the second to server 1, and the answer is printed. -/
def shows {α : Type} (print : α → Shown) (r : Option (Bytes × Bytes × α)) : ClientEnd :=
  match r with
  | none => .undefined
  | some (to0, to1, answer) => .sent to0 to1 (print answer)

theorem ended_shows {α : Type} (print : α → Shown) (r : Option (Bytes × Bytes × α)) : ended print r = shows print r := by
  rcases r with _ | ⟨a, b, c⟩ <;> rfl

/-- The operation run with `n` submissions of width `b` (and degree `d`). -/
noncomputable def OpName.run (e : ClientEnv) (n b d : ℕ) : OpName → ClientEnd
  | .bitSum => shows .count (some (bitSumClient n e.junk e.prg))
  | .intSum => shows .word (some (intSumClient b n e.junk e.prg))
  | .and => shows .flag (some (xorClient true n e.junk e.prg))
  | .or => shows .flag (some (xorClient false n e.junk e.prg))
  | .max => shows .nat (some (maxClient true b n e.prg))
  | .min => shows .nat (some (maxClient false b n e.prg))
  | .var => shows .real (varClient e.fma false b e.tables (e.rands n) e.junk e.prg)
  | .stddev => shows .real (varClient e.fma true b e.tables (e.rands n) e.junk e.prg)
  | .linReg => shows .coeffs (linClient d b e.tables (e.rands n) e.junk e.prg)
  | .freq => shows .hist (some (freqClient b n e.prg))

theorem shl_ne_zero {b : ℕ} (hb : b ≤ 63) : (1#64 <<< b : U64) ≠ 0#64 := by
  intro h
  have := congrArg BitVec.toNat h
  rw [shl_toNat (by omega)] at this
  exact absurd this (by simp)

theorem clientOp_run (e : ClientEnv) (op : OpName) {n b d : ℕ} (hn : n < 2 ^ 31) (hb : b ≤ op.widest) (hd : d < 2 ^ 30) :
    clientOp e op.arg (BitVec.ofNat 32 n) b b d = op.run e n b d := by
  have hw : b ≤ 63 := hb.trans (by cases op <;> decide)
  have ha : ∀ k, allocates (BitVec.ofNat 32 n) k = k n := by
    intro k
    unfold allocates
    have : (BitVec.ofNat 32 n).toNat = n := by rw [BitVec.toNat_ofNat]; omega
    rw [if_neg, this]
    rw [BitVec.toInt_eq_toNat_cond, this, if_pos (by omega)]
    omega
  have hv : ∀ k, divides b n k = k := fun k => if_neg fun h => shl_ne_zero hw h.1
  have hq : ¬ 2 ^ 60 ≤ d - 1 + numQuad d + 1 := by
    unfold numQuad
    have : (d - 1) * (d - 1 + 1) / 2 ≤ 2 ^ 59 := by
      refine Nat.div_le_of_le_mul ?_
      calc (d - 1) * (d - 1 + 1) ≤ 2 ^ 30 * 2 ^ 30 := Nat.mul_le_mul (by omega) (by omega)
        _ = _ := by norm_num
    omega
  cases op <;> simp only [OpName.widest] at hb
  all_goals simp only [clientOp, OpName.arg, OpName.run, ended_shows, ha, hv, hq, if_false, reduceIte, String.reduceEq]
  all_goals try rw [if_neg (by omega)]
  rw [if_neg]
  rw [shl_toNat (by omega)]
  have : (2 : ℕ) ^ b ≤ 2 ^ 59 := Nat.pow_le_pow_right (by norm_num) hb
  omega

/-- C70: with a number of submissions, two ports, the name of an operation and a width that the operation takes (and for LINREG possibly a degree), all
written in decimal, the client runs this operation with these parameters; the degree is 2 if it is not given; more arguments are ignored. -/
theorem C70_runs (e : ClientEnv) (op : OpName) {prog sn sp0 sp1 sb : String} {n p0 p1 b : ℕ} (hn : Writes sn n) (h0 : Writes sp0 p0)
    (h1 : Writes sp1 p1) (hb : Writes sb b) (ln : n < 2 ^ 31) (l0 : p0 < 2 ^ 31) (l1 : p1 < 2 ^ 31) (lb : b ≤ op.widest) :
    clientMain e [prog, sn, sp0, sp1, op.arg, sb] = op.run e n b 2 ∧
    ∀ {sd : String} {d : ℕ} (more : List String), Writes sd d → 2 ≤ d → d < 2 ^ 30 →
      clientMain e (prog :: sn :: sp0 :: sp1 :: op.arg :: sb :: sd :: more) = op.run e n b d := by
  have hw : b ≤ 63 := lb.trans (by cases op <;> decide)
  have eb : (BitVec.ofNat 32 b).toNat = b := by rw [BitVec.toNat_ofNat]; omega
  have key : ∀ (rest : List String) (d : ℕ), d < 2 ^ 30 →
      (∀ k, withDegree (prog :: sn :: sp0 :: sp1 :: op.arg :: sb :: rest) k = k d) →
      clientMain e (prog :: sn :: sp0 :: sp1 :: op.arg :: sb :: rest) = op.run e n b d := by
    intro rest d hd hdeg
    unfold clientMain
    rw [if_neg (by simp)]
    simp only [List.getElem?_cons_succ, List.getElem?_cons_zero, Option.bind_some, C70_atoi hn ln, C70_atoi h0 l0, C70_atoi h1 l1]
    unfold withBits
    simp only [List.getElem?_cons_succ, List.getElem?_cons_zero, C70_atoi hb (by omega), eb, if_neg (by omega : ¬ 64 ≤ b), if_neg (by omega : ¬ 63 < b), hdeg]
    exact clientOp_run e op ln lb hd
  refine ⟨key [] 2 (by norm_num) fun k => rfl, fun {sd d} more hs h2 hd => key (sd :: more) d hd fun k => ?_⟩
  unfold withDegree
  have ed : (BitVec.ofNat 32 d).toNat = d := by rw [BitVec.toNat_ofNat]; omega
  simp only [List.getElem?_cons_succ, List.getElem?_cons_zero, C70_atoi hs (by omega), ed, if_neg (by omega : ¬ d < 2)]

/-- C70, the failures that are reported: fewer than three arguments, a degree below two, a width above 31 for an operation with squares. -/
theorem C70_reports_partial (e : ClientEnv) :
    (∀ argv, argv.length < 4 → clientMain e argv = .usage) ∧
    ∀ {prog sn sp0 sp1 sb : String} {n p0 p1 b : ℕ}, Writes sn n → Writes sp0 p0 → Writes sp1 p1 → Writes sb b → n < 2 ^ 31 → p0 < 2 ^ 31 →
      p1 < 2 ^ 31 → b ≤ 63 →
      (∀ (name : String) {sd : String} {d : ℕ} (more : List String), Writes sd d → d < 2 →
        clientMain e (prog :: sn :: sp0 :: sp1 :: name :: sb :: sd :: more) = .failed) ∧
      (31 < b → ∀ op ∈ [OpName.var, .stddev, .linReg], clientMain e [prog, sn, sp0, sp1, op.arg, sb] = .failed) := by
  refine ⟨fun argv h => if_pos h, ?_⟩
  intro prog sn sp0 sp1 sb n p0 p1 b hn h0 h1 hb ln l0 l1 lb
  have eb : (BitVec.ofNat 32 b).toNat = b := by rw [BitVec.toNat_ofNat]; omega
  constructor
  · intro name sd d more hs hd
    unfold clientMain
    rw [if_neg (by simp)]
    simp only [List.getElem?_cons_succ, List.getElem?_cons_zero, Option.bind_some, C70_atoi hn ln, C70_atoi h0 l0, C70_atoi h1 l1]
    unfold withBits
    simp only [List.getElem?_cons_succ, List.getElem?_cons_zero, C70_atoi hb (by omega), eb, if_neg (by omega : ¬ 64 ≤ b), if_neg (by omega : ¬ 63 < b)]
    unfold withDegree
    have ed : (BitVec.ofNat 32 d).toNat = d := by rw [BitVec.toNat_ofNat]; omega
    simp only [List.getElem?_cons_succ, List.getElem?_cons_zero, C70_atoi hs (by omega), ed, if_pos hd]
  · intro hw op hop
    unfold clientMain
    rw [if_neg (by simp)]
    simp only [List.getElem?_cons_succ, List.getElem?_cons_zero, Option.bind_some, C70_atoi hn ln, C70_atoi h0 l0, C70_atoi h1 l1]
    unfold withBits
    simp only [List.getElem?_cons_succ, List.getElem?_cons_zero, C70_atoi hb (by omega), eb, if_neg (by omega : ¬ 64 ≤ b), if_neg (by omega : ¬ 63 < b)]
    unfold withDegree
    simp only [List.getElem?_cons_succ, List.getElem?_nil]
    simp only [List.mem_cons, List.not_mem_nil, or_false] at hop
    rcases hop with rfl | rfl | rfl <;> simp [clientOp, OpName.arg, hw]

/-- C70 is false of FREQOP with a width from 60 to 63, which the program takes: an exception for the table of counts ends it, whatever the number of
submissions. -/
theorem C70_false_freq_wide (e : ClientEnv) {prog sn sp0 sp1 sb : String} {n p0 p1 b : ℕ} (hn : Writes sn n) (h0 : Writes sp0 p0)
    (h1 : Writes sp1 p1) (hb : Writes sb b) (ln : n < 2 ^ 31) (l0 : p0 < 2 ^ 31) (l1 : p1 < 2 ^ 31) (lb : 60 ≤ b) (ub : b ≤ 63) :
    clientMain e [prog, sn, sp0, sp1, "FREQOP", sb] = .aborted := by
  have eb : (BitVec.ofNat 32 b).toNat = b := by rw [BitVec.toNat_ofNat]; omega
  unfold clientMain
  rw [if_neg (by simp)]
  simp only [List.getElem?_cons_succ, List.getElem?_cons_zero, Option.bind_some, C70_atoi hn ln, C70_atoi h0 l0, C70_atoi h1 l1]
  unfold withBits
  simp only [List.getElem?_cons_succ, List.getElem?_cons_zero, C70_atoi hb (by omega), eb, if_neg (by omega : ¬ 64 ≤ b), if_neg (by omega : ¬ 63 < b)]
  unfold withDegree
  simp only [List.getElem?_cons_succ, List.getElem?_nil]
  simp only [clientOp, reduceIte, String.reduceEq, if_false]
  rw [if_pos]
  rw [shl_toNat (by omega)]
  exact Nat.pow_le_pow_right (by norm_num) lb

/-- C70 is false for three arguments: the program asks for at least three but uses the fourth. Every such run is undefined. -/
theorem C70_false_three_arguments (e : ClientEnv) (argv : List String) (h : argv.length = 4) : clientMain e argv = .undefined := by
  have h4 : argv[4]? = none := List.getElem?_eq_none (by omega)
  unfold clientMain
  rw [if_neg (by omega), h4]
  split <;> rfl

/-- C70 is false without a width: `max_int` is 0, and INTSUM, VAROP, STDDEVOP, LINREGOP and FREQOP divide by it. -/
theorem C70_false_no_width (e : ClientEnv) {prog sn sp0 sp1 : String} {n p0 p1 : ℕ} (hn : Writes sn n) (h0 : Writes sp0 p0)
    (h1 : Writes sp1 p1) (ln : n < 2 ^ 31) (l0 : p0 < 2 ^ 31) (l1 : p1 < 2 ^ 31) (hpos : 0 < n) (op : OpName)
    (hop : op ∈ [OpName.intSum, .var, .stddev, .linReg, .freq]) : clientMain e [prog, sn, sp0, sp1, op.arg] = .undefined := by
  have ha : ∀ k, allocates (BitVec.ofNat 32 n) k = k n := by
    intro k
    unfold allocates
    have : (BitVec.ofNat 32 n).toNat = n := by rw [BitVec.toNat_ofNat]; omega
    rw [if_neg, this]
    rw [BitVec.toInt_eq_toNat_cond, this, if_pos (by omega)]
    omega
  have hz : (1#64 <<< 64 : U64) = 0#64 := by decide
  have hv : ∀ k, divides 64 n k = .undefined := fun k => if_pos ⟨hz, hpos⟩
  unfold clientMain
  rw [if_neg (by simp)]
  simp only [List.getElem?_cons_succ, List.getElem?_cons_zero, Option.bind_some, C70_atoi hn ln, C70_atoi h0 l0, C70_atoi h1 l1]
  have hq : ¬ 2 ^ 60 ≤ 2 - 1 + numQuad 2 + 1 := by decide
  simp only [withBits, withDegree, List.getElem?_cons_succ, List.getElem?_nil]
  simp only [List.mem_cons, List.not_mem_nil, or_false] at hop
  rcases hop with rfl | rfl | rfl | rfl | rfl <;>
    simp only [clientOp, OpName.arg, ha, hv, hq, reduceIte, String.reduceEq, if_false, Nat.not_lt_zero]
  rw [if_neg (by rw [hz]; decide)]

/-- C70 is false for widths from 64 on: the shift comes before the check of the width, so that no run ever comes to the error message. -/
theorem C70_false_wide (e : ClientEnv) (argv : List String) {s : String} {b : BitVec 32} (h5 : argv[5]? = some s) (hs : atoi s = some b)
    (hb : 64 ≤ b.toNat) : clientMain e argv = .undefined := by
  have hl : 5 < argv.length := (List.getElem?_eq_some_iff.1 h5).1
  unfold clientMain
  rw [if_neg (by omega)]
  split
  · split
    · rfl
    · simp only [withBits, h5, hs, if_pos hb]
  · rfl

/-- C70: an unrecognised operation sends `NONE_OP`; both servers pass over it and stay in step. -/
theorem C70_unknown (e : ClientEnv) {prog sn sp0 sp1 sb name : String} {n p0 p1 b : ℕ} (hn : Writes sn n) (h0 : Writes sp0 p0)
    (h1 : Writes sp1 p1) (hb : Writes sb b) (ln : n < 2 ^ 31) (l0 : p0 < 2 ^ 31) (l1 : p1 < 2 ^ 31) (lb : b ≤ 63)
    (hname : ∀ op : OpName, name ≠ op.arg) :
    ∃ b0 b1, clientMain e [prog, sn, sp0, sp1, name, sb] = .sent b0 b1 .nothing ∧
      ∀ (c : StoreCfg) {g0 g1 : StoreRng} (_ : GoodRng intModulus g0) (nbits : ℕ) (coef : ℕ → ℤ) {e0 e1 : Env} {s0 s1 : Srv} (_ : Ready e0 e1 s0 s1 b0 b1),
        ∃ s0' s1', Always (iteration false c g0 nbits coef e0 s0) (iteration true c g1 nbits coef e1 s1) (.idle, s0') (.idle, s1') ∧
          ∃ y, InStep y s0' s1' := by
  have eb : (BitVec.ofNat 32 b).toNat = b := by rw [BitVec.toNat_ofNat]; omega
  refine ⟨encInit ⟨0#32, e.junkNum, e.junk⟩, encInit ⟨0#32, e.junkNum, e.junk⟩, ?_, ?_⟩
  · unfold clientMain
    rw [if_neg (by simp)]
    simp only [List.getElem?_cons_succ, List.getElem?_cons_zero, Option.bind_some, C70_atoi hn ln, C70_atoi h0 l0, C70_atoi h1 l1]
    unfold withBits
    simp only [List.getElem?_cons_succ, List.getElem?_cons_zero, C70_atoi hb (by omega), eb, if_neg (by omega : ¬ 64 ≤ b), if_neg (by omega : ¬ 63 < b)]
    unfold withDegree
    simp only [List.getElem?_cons_succ, List.getElem?_nil]
    unfold clientOp
    rw [if_neg (show ¬ name = "BITSUM" from hname .bitSum),
      if_neg (show ¬ name = "INTSUM" from hname .intSum),
      if_neg (show ¬ name = "ANDOP" from hname .and),
      if_neg (show ¬ name = "OROP" from hname .or),
      if_neg (show ¬ name = "MAXOP" from hname .max),
      if_neg (show ¬ name = "MINOP" from hname .min),
      if_neg (show ¬ name = "VAROP" from hname .var),
      if_neg (show ¬ name = "STDDEVOP" from hname .stddev),
      if_neg (show ¬ name = "LINREGOP" from hname .linReg),
      if_neg (show ¬ name = "FREQOP" from hname .freq)]
  · intro c g0 g1 hg nbits coef e0 e1 s0 s1 h
    obtain ⟨y, hy⟩ := h.step
    have ho : Opens 0#32 e.junkNum.toNat none (encInit ⟨0#32, e.junkNum, e.junk⟩) [] :=
      ⟨e.junkNum.isLt, e.junk, by simp, by rw [BitVec.ofNat_toNat, BitVec.setWidth_eq, List.append_nil]⟩
    obtain ⟨a, s0', s1', hP, hA, hI⟩ := iteration_pair c (g1 := g1) hg (nbits := nbits) coef (b := .idle 0#32) (e0 := e0) (e1 := e1)
      (by rw [h.stream0, h.stream1]; exact ⟨_, _, [], [], ho, ho⟩) (by show (0#32 : BitVec 32) ∉ _; decide) h.ord h.draw hy
    have hA' : a = .idle := hA
    subst hA'
    exact ⟨s0', s1', hP.always, _, hI⟩

/-- A negative number of submissions: the program ends by an exception before anything is sent. -/
theorem C70_negative (e : ClientEnv) {prog sn tn sp0 sp1 sb : String} {n p0 p1 b : ℕ} (hn : Writes tn n) (ht : sn.toList = '-' :: tn.toList) (hpos : 0 < n)
    (ln : n ≤ 2 ^ 31) (h0 : Writes sp0 p0) (h1 : Writes sp1 p1) (hb : Writes sb b) (l0 : p0 < 2 ^ 31) (l1 : p1 < 2 ^ 31) (op : OpName)
    (lb : b ≤ op.widest) : clientMain e [prog, sn, sp0, sp1, op.arg, sb] = .aborted := by
  have hw : b ≤ 63 := lb.trans (by cases op <;> decide)
  have eb : (BitVec.ofNat 32 b).toNat = b := by rw [BitVec.toNat_ofNat]; omega
  have ha : ∀ k, allocates (BitVec.ofInt 32 (-(n : ℤ))) k = .aborted := by
    intro k
    refine if_pos ?_
    rw [BitVec.toInt_ofInt, Int.bmod_eq_of_le (by omega) (by omega)]
    omega
  unfold clientMain
  rw [if_neg (by simp)]
  simp only [List.getElem?_cons_succ, List.getElem?_cons_zero, Option.bind_some, C70_atoi_neg hn ht ln, C70_atoi h0 l0, C70_atoi h1 l1]
  unfold withBits
  simp only [List.getElem?_cons_succ, List.getElem?_cons_zero, C70_atoi hb (by omega), eb, if_neg (by omega : ¬ 64 ≤ b), if_neg (by omega : ¬ 63 < b)]
  unfold withDegree
  simp only [List.getElem?_cons_succ, List.getElem?_nil]
  have hq : ¬ 2 ^ 60 ≤ 2 - 1 + numQuad 2 + 1 := by decide
  cases op <;> simp only [OpName.widest] at lb
  all_goals simp only [clientOp, OpName.arg, ha, hq, if_false, reduceIte, String.reduceEq]
  all_goals first | exact if_neg (by omega) | (split <;> rfl)

/-- Command lines as a user writes them. -/
example : Writes "100" 100 ∧ Writes "8000" 8000 ∧ Writes "8001" 8001 ∧ Writes "31" 31 ∧ Writes "08" 8 ∧ 31 ≤ OpName.var.widest ∧ atoi "64" = some 64#32 ∧
    atoi "-1" = some (BitVec.ofNat 32 4294967295) ∧ atoi " +7x" = some 7#32 ∧ atoi "4294967296" = none ∧
    ["client", "5", "8000", "8001"].length = 4 := by
  refine ⟨⟨by decide, by decide, by decide⟩, ⟨by decide, by decide, by decide⟩, ⟨by decide, by decide, by decide⟩, ⟨by decide, by decide, by decide⟩,
    ⟨by decide, by decide, by decide⟩, by decide, by decide, by decide, by decide, by decide, by decide⟩

end Verif

import Verif.LemmasOt
import Verif.PropsProc
import Verif.ModelConstants

/-!
# C16, C17, C18, C20: sums and triples by oblivious transfer
-/

namespace Verif

/-- Specification: the number of valid rows whose two bits differ. -/
def countDiff (rows : List BitRow) (ys : List Bool) : ℕ :=
  ((rows.zip ys).filter fun q => q.1.valid && (q.1.share != q.2)).length

theorem countDiff_cons (r : BitRow) (rows : List BitRow) (y : Bool) (ys : List Bool) :
    countDiff (r :: rows) (y :: ys) = (if r.valid && (r.share != y) then 1 else 0) + countDiff rows ys := by
  unfold countDiff
  rw [List.zip_cons_cons, List.filter_cons]
  split <;> simp [add_comm]

/-- What is needed of one row of bits. -/
structure BitOk {m : U64} {R : Type} [CommRing R] (I : Interp m R) (r : BitRow) : Prop where
  c : I.mid ((otMax m - redMod m r.raw + 1#64) + b64 r.share)
  b0 : I.mid (redMod m r.raw)
  b1 : I.mid (redMod m r.raw + 1#64 - 2#64 * b64 r.share)
  eq0 : I.φ ((otMax m - redMod m r.raw + 1#64) + b64 r.share) + I.φ (redMod m r.raw) = if r.share then 1 else 0
  eq1 : I.φ ((otMax m - redMod m r.raw + 1#64) + b64 r.share) +
    I.φ (redMod m r.raw + 1#64 - 2#64 * b64 r.share) = if r.share then 0 else 1

theorem bit_sum_eq {m : U64} {R : Type} [CommRing R] (I : Interp m R) (rows : List BitRow) (ys : List Bool) (s t : U64)
    (hn : rows.length = ys.length) (hs : I.small s) (ht : I.small t) (hok : ∀ r ∈ rows, r.valid = true → BitOk I r) :
    I.small (rows.foldl (bitAcc m) s) ∧
    I.small ((otChoose (rows.map (bitPair m)) ys).foldl (fun s x => redMod m (s + x)) t) ∧
    I.φ (rows.foldl (bitAcc m) s) + I.φ ((otChoose (rows.map (bitPair m)) ys).foldl (fun s x => redMod m (s + x)) t) =
      I.φ s + I.φ t + (countDiff rows ys : R) := by
  induction rows generalizing ys s t with
  | nil => cases ys <;> simp_all [otChoose, countDiff]
  | cons r rows ih =>
    cases ys with
    | nil => simp at hn
    | cons y ys =>
      have hok' : ∀ r ∈ rows, r.valid = true → BitOk I r := fun r hr => hok r (List.mem_cons_of_mem _ hr)
      rw [List.map_cons, otChoose_cons, List.foldl_cons, List.foldl_cons, countDiff_cons]
      obtain ⟨sh, v, raw⟩ := r
      cases v
      · have e : (if y = true then (bitPair m ⟨sh, false, raw⟩).2 else (bitPair m ⟨sh, false, raw⟩).1) = 0#64 := by
          cases y <;> rfl
        have a := I.acc t 0#64 ht I.midZero
        have h := ih ys s (redMod m (t + 0#64)) (by simpa using hn) hs a.1 hok'
        rw [e]
        refine ⟨h.1, h.2.1, ?_⟩
        have h3 := h.2.2
        rw [a.2, I.zero] at h3
        simp only [bitAcc, Bool.false_eq_true, if_false, Bool.false_and]
        rw [h3]; push_cast; ring
      · have c := hok ⟨sh, true, raw⟩ (List.mem_cons_self ..) rfl
        have as := I.acc s _ hs c.c
        have at0 := I.acc t _ ht c.b0
        have at1 := I.acc t _ ht c.b1
        have e0 := c.eq0
        have e1 := c.eq1
        simp only at as at0 at1 e0 e1
        simp only [bitAcc, bitPair, if_true, Bool.true_and]
        cases y
        · have h := ih ys _ _ (by simpa using hn) as.1 at0.1 hok'
          refine ⟨h.1, h.2.1, ?_⟩
          have h3 := h.2.2
          rw [as.2, at0.2] at h3
          refine h3.trans ?_
          cases sh <;> simp at e0 ⊢ <;> linear_combination e0
        · have h := ih ys _ _ (by simpa using hn) as.1 at1.1 hok'
          refine ⟨h.1, h.2.1, ?_⟩
          have h3 := h.2.2
          rw [as.2, at1.2] at h3
          refine h3.trans ?_
          cases sh <;> simp at e1 ⊢ <;> linear_combination e1

theorem bitsum_pair (ch : Bool) (m : U64) (rows : List BitRow) (ys : List Bool) (hn : rows.length = ys.length) :
    Pair (bitsumSender ch m rows) (bitsumReceiver ch m ys) (rows.foldl (bitAcc m) 0#64)
      ((otChoose (rows.map (bitPair m)) ys).foldl (fun s x => redMod m (s + x)) 0#64) :=
  (Pair.ot01 _ _ _ (by simpa using hn)).bind (Pair.ret _ _)

theorem bitOk0 (r : BitRow) : BitOk interp0 r := by
  refine ⟨trivial, trivial, trivial, ?_, ?_⟩
  · show (otMax 0#64 - redMod 0#64 r.raw + 1#64) + b64 r.share + redMod 0#64 r.raw = _
    rw [otMax_zero_sub]
    cases r.share <;> simp [b64, add_comm]
  · show (otMax 0#64 - redMod 0#64 r.raw + 1#64) + b64 r.share + (redMod 0#64 r.raw + 1#64 - 2#64 * b64 r.share) = _
    rw [otMax_zero_sub]
    have h1 : (1#64 : U64) = 1 := rfl
    have h2 : (2#64 : U64) = 2 := rfl
    have h0 : (0#64 : U64) = 0 := rfl
    cases r.share
    · simp only [b64, h1, h2, h0, Bool.false_eq_true, if_false]; ring
    · simp only [b64, h1, h2, if_true]; ring

theorem C16_pair (ch : Bool) (rows : List BitRow) (ys : List Bool) (hn : rows.length = ys.length) :
    ∃ a b, Pair (bitsumSender ch 0#64 rows) (bitsumReceiver ch 0#64 ys) a b ∧
      a + b = BitVec.ofNat 64 (countDiff rows ys) := by
  refine ⟨_, _, bitsum_pair ch 0#64 rows ys hn, ?_⟩
  have := (bit_sum_eq interp0 rows ys 0#64 0#64 hn trivial trivial fun r _ _ => bitOk0 r).2.2
  simpa [interp0] using this

/-- C16. Modulus argument 0: for every schedule, the two results add up, modulo 2^64, to the number of valid rows whose
bits differ, for all draws `raw`. -/
theorem C16_bitsum_exact (ch : Bool) (rows : List BitRow) (ys : List Bool) (hn : rows.length = ys.length) :
    ∃ a b, Always (bitsumSender ch 0#64 rows) (bitsumReceiver ch 0#64 ys) a b ∧
      a + b = BitVec.ofNat 64 (countDiff rows ys) :=
  let ⟨a, b, h, e⟩ := C16_pair ch rows ys hn; ⟨a, b, h.always, e⟩

/-- C16, excluded rows: the bits of rows flagged invalid do not matter. -/
theorem C16_invalid_excluded (rows rows' : List BitRow) (ys ys' : List Bool)
    (h : List.Forall₂ (fun q q' => q.1.valid = q'.1.valid ∧ (q.1.valid = true → q.1.share = q'.1.share ∧ q.2 = q'.2))
      (rows.zip ys) (rows'.zip ys')) : countDiff rows ys = countDiff rows' ys' := by
  unfold countDiff
  generalize rows.zip ys = A at h
  generalize rows'.zip ys' = B at h
  induction h with
  | nil => rfl
  | @cons q q' A B hq _ ih =>
    rw [List.filter_cons, List.filter_cons]
    obtain ⟨hv, he⟩ := hq
    cases hq1 : q.1.valid
    · rw [hq1] at hv; simp [← hv, ih]
    · obtain ⟨h1, h2⟩ := he hq1
      rw [hq1] at hv
      rw [← hv, h1, h2]
      split <;> simp [ih]

example : countDiff [⟨true, true, 5#64⟩, ⟨false, false, 9#64⟩, ⟨true, true, 0#64⟩] [false, true, true] = 1 := by decide

theorem bitOkMod (m : U64) (hm : m ≠ 0#64) (hb : m.toNat ≤ 2 ^ 62) (r : BitRow)
    (h0 : r.share = true → (redMod m r.raw).toNat ≠ 0) : BitOk (interpMod m hm hb) r := by
  have hlt : (redMod m r.raw).toNat < m.toNat := redMod_lt hm
  have hmb : (otMax m - redMod m r.raw + 1#64).toNat = m.toNat - (redMod m r.raw).toNat := otMax_sub hm (by omega)
  have hc : ((otMax m - redMod m r.raw + 1#64) + b64 r.share).toNat =
      m.toNat - (redMod m r.raw).toNat + (if r.share then 1 else 0) := by
    rw [BitVec.toNat_add, hmb]
    cases r.share <;> simp [b64] <;> omega
  have h1 : (redMod m r.raw + 1#64 - 2#64 * b64 r.share).toNat =
      if r.share then (redMod m r.raw).toNat - 1 else (redMod m r.raw).toNat + 1 := by
    cases hs : r.share
    · simp only [b64, Bool.false_eq_true, if_false]
      rw [BitVec.mul_zero, BitVec.sub_zero, BitVec.toNat_add]; simp; omega
    · have := h0 hs
      simp only [b64, if_true]
      rw [show (2#64 * 1#64 : U64) = 2#64 from rfl, BitVec.toNat_sub, BitVec.toNat_add]; simp; omega
  have z : ((m.toNat : ℕ) : ZMod m.toNat) = 0 := ZMod.natCast_self _
  constructor
  · show (_ : U64).toNat ≤ _
    rw [hc]; cases r.share <;> simp <;> omega
  · show (_ : U64).toNat ≤ _
    omega
  · show (_ : U64).toNat ≤ _
    rw [h1]; cases r.share <;> simp <;> omega
  · show (((_ : U64).toNat : ℕ) : ZMod m.toNat) + (((_ : U64).toNat : ℕ) : ZMod m.toNat) = _
    rw [hc, Nat.cast_add, Nat.cast_sub hlt.le, z]
    cases r.share <;> simp
  · show (((_ : U64).toNat : ℕ) : ZMod m.toNat) + (((_ : U64).toNat : ℕ) : ZMod m.toNat) = _
    rw [hc, h1, Nat.cast_add, Nat.cast_sub hlt.le, z]
    cases hs : r.share
    · simp
    · have := h0 hs
      simp only [if_true]
      rw [Nat.cast_sub (by omega)]; simp

theorem castHom {n : ℕ} (hb : n ∣ 2 ^ 64) (x y : U64) :
    ((((x + y).toNat : ℕ)) : ZMod n) = (x.toNat : ZMod n) + (y.toNat : ZMod n) := by
  have h0 : ((2 ^ 64 : ℕ) : ZMod n) = 0 := (ZMod.natCast_eq_zero_iff _ _).2 hb
  rw [BitVec.toNat_add]
  have key := congrArg (Nat.cast (R := ZMod n)) (Nat.div_add_mod (x.toNat + y.toNat) (2 ^ 64))
  rw [Nat.cast_add, Nat.cast_mul, h0, zero_mul, zero_add] at key
  rw [key]; push_cast; ring

theorem bitOkPow (m : U64) (hm : m ≠ 0#64) (hb : m.toNat ∣ 2 ^ 64) (r : BitRow) : BitOk (interpPow m hm hb) r := by
  have hadd := castHom (n := m.toNat) hb
  have hsub : ∀ x y : U64, ((((x - y).toNat : ℕ)) : ZMod m.toNat) = (x.toNat : ZMod m.toNat) - (y.toNat : ZMod m.toNat) := by
    intro x y
    have := hadd (x - y) y
    rw [BitVec.sub_add_cancel] at this
    rw [this]; ring
  have z : ((m.toNat : ℕ) : ZMod m.toNat) = 0 := ZMod.natCast_self _
  have hM : ((otMax m).toNat : ZMod m.toNat) = -1 := by
    rw [otMax, if_neg hm, hsub, z]; simp
  have e1 : (((1#64 : U64).toNat : ℕ) : ZMod m.toNat) = 1 := by norm_num
  refine ⟨trivial, trivial, trivial, ?_, ?_⟩
  · show (((_ : U64).toNat : ℕ) : ZMod m.toNat) + (((_ : U64).toNat : ℕ) : ZMod m.toNat) = _
    rw [hadd, hadd, hsub, hM, e1]
    cases r.share <;> simp [b64] <;> ring
  · show (((_ : U64).toNat : ℕ) : ZMod m.toNat) + (((_ : U64).toNat : ℕ) : ZMod m.toNat) = _
    rw [hadd, hadd, hsub, hM, hsub, hadd, e1]
    cases r.share
    · simp [b64]; ring
    · simp [b64]; ring

/-- C17 is false: with a non-zero modulus, if a mask is 0 on a valid row with sender bit 1, the results do not add up to
the count. Witness with the configured field modulus: both bits are 1, so the count is 0, but the results add up to
something else. -/
theorem C17_false_zero_mask :
    ∃ (rows : List BitRow) (ys : List Bool) (a b : U64), rows.length = ys.length ∧
      Always (bitsumSender false (BitVec.ofNat 64 intModulus) rows) (bitsumReceiver false (BitVec.ofNat 64 intModulus) ys) a b ∧
      countDiff rows ys = 0 ∧ (a.toNat + b.toNat) % intModulus ≠ 0 :=
  ⟨[⟨true, true, 0#64⟩], [true], _, _, rfl, (bitsum_pair false _ _ _ rfl).always, by decide, by decide⟩

/-- C17, what holds (1): exact modulo `m ≤ 2^62` when no mask is 0 on a valid row with sender bit 1. -/
theorem C17_bitsum_mod_partial (ch : Bool) (m : U64) (hm : m ≠ 0#64) (hb : m.toNat ≤ 2 ^ 62) (rows : List BitRow)
    (ys : List Bool) (hn : rows.length = ys.length)
    (h0 : ∀ r ∈ rows, r.valid = true → r.share = true → r.raw.toNat % m.toNat ≠ 0) :
    ∃ a b, Always (bitsumSender ch m rows) (bitsumReceiver ch m ys) a b ∧ a.toNat < m.toNat ∧ b.toNat < m.toNat ∧
      (a.toNat + b.toNat) % m.toNat = countDiff rows ys % m.toNat := by
  have := bit_sum_eq (interpMod m hm hb) rows ys 0#64 0#64 hn (interpMod m hm hb).smallZero (interpMod m hm hb).smallZero
    fun r hr hv => bitOkMod m hm hb r fun hs => by rw [redMod_toNat hm]; exact h0 r hr hv hs
  refine ⟨_, _, (bitsum_pair ch m rows ys hn).always, this.1, this.2.1, ?_⟩
  have h3 := this.2.2
  rw [(interpMod m hm hb).zero, add_zero, zero_add] at h3
  have h4 : (((_ : U64).toNat : ℕ) : ZMod m.toNat) + (((_ : U64).toNat : ℕ) : ZMod m.toNat) = _ := h3
  rw [← Nat.cast_add] at h4
  exact (ZMod.natCast_eq_natCast_iff' _ _ _).1 h4

/-- C17, what holds (2): exact modulo `m` for every mask when `m` divides 2^64. -/
theorem C17_bitsum_pow2_partial (ch : Bool) (m : U64) (hm : m ≠ 0#64) (hb : m.toNat ∣ 2 ^ 64) (rows : List BitRow)
    (ys : List Bool) (hn : rows.length = ys.length) :
    ∃ a b, Always (bitsumSender ch m rows) (bitsumReceiver ch m ys) a b ∧
      (a.toNat + b.toNat) % m.toNat = countDiff rows ys % m.toNat := by
  have := bit_sum_eq (interpPow m hm hb) rows ys 0#64 0#64 hn trivial trivial fun r _ _ => bitOkPow m hm hb r
  refine ⟨_, _, (bitsum_pair ch m rows ys hn).always, ?_⟩
  have h3 := this.2.2
  rw [(interpPow m hm hb).zero, add_zero, zero_add] at h3
  have h4 : (((_ : U64).toNat : ℕ) : ZMod m.toNat) + (((_ : U64).toNat : ℕ) : ZMod m.toNat) = _ := h3
  rw [← Nat.cast_add] at h4
  exact (ZMod.natCast_eq_natCast_iff' _ _ _).1 h4

/-- Hypotheses of C17 (1) hold for a batch with a non-zero mask, those of (2) for modulus 8. -/
example : (10#64 : U64) ≠ 0#64 ∧ (10#64 : U64).toNat ≤ 2 ^ 62 ∧
    ∀ r ∈ [(⟨true, true, 13#64⟩ : BitRow), ⟨true, false, 0#64⟩], r.valid = true → r.share = true →
      r.raw.toNat % (10#64 : U64).toNat ≠ 0 := by decide
example : (8#64 : U64) ≠ 0#64 ∧ (8#64 : U64).toNat ∣ 2 ^ 64 := by decide

/-! ## Integers -/

/-- The two result matrices have the expected shape, and entry by entry `f a b t` holds. -/
def MatAgree (f : U64 → U64 → ℕ → Prop) (A B : List (List U64)) (T : List (List ℕ)) : Prop :=
  A.length = T.length ∧ B.length = T.length ∧
  ∀ i (_ : i < T.length), (A.getD i []).length = (T.getD i []).length ∧ (B.getD i []).length = (T.getD i []).length ∧
    ∀ j (_ : j < (T.getD i []).length), f ((A.getD i []).getD j 0) ((B.getD i []).getD j 0) ((T.getD i []).getD j 0)

theorem matAgree_of_ok {m : U64} {R : Type} [CommRing R] {I : Interp m R} {A B : List (List U64)} {T : List (List ℕ)}
    (h : MatOk I A B T) : MatAgree (fun a b t => I.small a ∧ I.small b ∧ I.φ a + I.φ b = (t : R)) A B T := by
  refine ⟨h.lenA, h.lenB, ?_⟩
  intro i hi
  have hA : i < A.length := by rw [h.lenA]; exact hi
  have hB : i < B.length := by rw [h.lenB]; exact hi
  have hz : i < (A.zip B).length := by simp; omega
  have hr : RowOk I A[i] B[i] T[i] := by
    have := h.rows.get hz hi
    simpa using this
  have eA : A.getD i [] = A[i] := by simp [List.getD, hA]
  have eB : B.getD i [] = B[i] := by simp [List.getD, hB]
  have eT : T.getD i [] = T[i] := by simp [List.getD, hi]
  rw [eA, eB, eT]
  refine ⟨hr.lenA, hr.lenB, ?_⟩
  intro j hj
  have hjA : j < A[i].length := by rw [hr.lenA]; exact hj
  have hjB : j < B[i].length := by rw [hr.lenB]; exact hj
  have eA : A[i].getD j 0 = A[i][j] := by simp [List.getD, hjA]
  have eB : B[i].getD j 0 = B[i][j] := by simp [List.getD, hjB]
  have eT : T[i].getD j 0 = T[i][j] := by simp [List.getD, hj]
  rw [eA, eB, eT]
  refine ⟨hr.smallA _ (List.getElem_mem _), hr.smallB _ (List.getElem_mem _), ?_⟩
  have := congrArg (fun l => l[j]?) hr.sum
  simpa [hjA, hjB, hj] using this

theorem C18_pair (ch : Bool) (rows : List IntRow) (ys : List (List U64)) (ws : List ℕ)
    (hn : rows.length = ys.length) (hx : ∀ r ∈ rows, r.vals.length = ws.length) (hy : ∀ y ∈ ys, y.length = ws.length)
    (hw : ∀ w ∈ ws, w ≤ 64) :
    ∃ A B, Pair (intsumSender ch 0#64 ws rows) (intsumReceiver ch 0#64 ws ys) A B ∧
      MatAgree (fun a b t => a + b = BitVec.ofNat 64 t) A B
        (List.zipWith (fun r y => List.zipWith (fun (q : U64 × U64) w =>
          if r.valid then (q.1 ^^^ q.2).toNat % 2 ^ w else 0) (r.vals.zip y) ws) rows ys) := by
  refine ⟨_, _, (intsum_pair 0#64 ch rows ys ws hn hx hy hw), ?_⟩
  have := matAgree_of_ok (rows_ok interp0 rows ys ws hn hx hy fun _ _ _ _ _ => cell0 _ _)
  refine ⟨this.1, this.2.1, fun i hi => ⟨(this.2.2 i hi).1, (this.2.2 i hi).2.1, fun j hj => ?_⟩⟩
  exact ((this.2.2 i hi).2.2 j hj).2.2

/-- C18. Modulus argument 0, widths at most 64: for every schedule and all draws, for every row and column the two
results add up, modulo 2^64, to the XOR of the two shares restricted to the column's width when the row is valid, and to
0 otherwise. -/
theorem C18_intsum_exact (ch : Bool) (rows : List IntRow) (ys : List (List U64)) (ws : List ℕ)
    (hn : rows.length = ys.length) (hx : ∀ r ∈ rows, r.vals.length = ws.length) (hy : ∀ y ∈ ys, y.length = ws.length)
    (hw : ∀ w ∈ ws, w ≤ 64) :
    ∃ A B, Always (intsumSender ch 0#64 ws rows) (intsumReceiver ch 0#64 ws ys) A B ∧
      MatAgree (fun a b t => a + b = BitVec.ofNat 64 t) A B
        (List.zipWith (fun r y => List.zipWith (fun (q : U64 × U64) w =>
          if r.valid then (q.1 ^^^ q.2).toNat % 2 ^ w else 0) (r.vals.zip y) ws) rows ys) :=
  let ⟨A, B, h, e⟩ := C18_pair ch rows ys ws hn hx hy hw; ⟨A, B, h.always, e⟩

example : ∃ A B, Always (intsumSender false 0#64 [3, 64] [⟨[5#64, 7#64], true, fun _ _ => 11#64⟩])
    (intsumReceiver false 0#64 [3, 64] [[1#64, 2#64]]) A B ∧ MatAgree (fun a b t => a + b = BitVec.ofNat 64 t) A B [[4, 5]] := by
  obtain ⟨A, B, h, e⟩ := C18_intsum_exact false [⟨[5#64, 7#64], true, fun _ _ => 11#64⟩] [[1#64, 2#64]] [3, 64] rfl
    (by simp) (by simp) (by simp)
  exact ⟨A, B, h, e⟩

/-- A valid row with a column of more than 64 bits is undefined behaviour. -/
theorem C18_too_wide (ch : Bool) (m : U64) (ws : List ℕ) (rows : List IntRow) (r : IntRow) (hr : r ∈ rows)
    (hv : r.valid = true) (w : ℕ) (hw : w ∈ ws) (h : 64 < w) : intsumSender ch m ws rows = .fault := by
  unfold intsumSender
  rw [if_neg]
  simp only [List.all_eq_true, not_forall]
  refine ⟨r, hr, ?_⟩
  simp only [hv, Bool.not_true, Bool.false_or, Bool.and_eq_true, List.all_eq_true, not_and, not_forall]
  intro _
  exact ⟨w, hw, by simpa using h⟩

/-! ## Boolean triples -/

/-- C20. For every number of triples and all draws of both servers, the two queues have this length and position by
position the reconstructed factors multiply to the reconstructed product. -/
theorem C20_pair (d0 d1 : List TripleDraw) (hn : d0.length = d1.length) :
    ∃ A B, Pair (genTriples0 d0) (genTriples1 d1) A B ∧ A.length = d0.length ∧ B.length = d0.length ∧
      ∀ i (hA : i < A.length) (hB : i < B.length),
        ((A[i].a != B[i].a) && (A[i].b != B[i].b)) = (A[i].c != B[i].c) := by
  refine ⟨_, _, (Pair.ot01 _ _ _ (by simpa using hn)).bind ((Pair.ot10 _ _ _ (by simpa using hn.symm)).bind (Pair.ret _ _)),
    ?_, ?_, ?_⟩
  · simp [otChoose, hn]
  · simp [otChoose, hn]
  · intro i hA hB
    simp only [otChoose, List.getElem_zipWith, List.getElem_map, tripleOf, triplePair]
    generalize d0[i]'(by simp [otChoose] at hA; omega) = a
    generalize d1[i]'(by simp [otChoose] at hB; omega) = b
    obtain ⟨x, y, r⟩ := a
    obtain ⟨x', y', r'⟩ := b
    cases x <;> cases y <;> cases r <;> cases x' <;> cases y' <;> cases r' <;> decide

theorem C20_boolean_triples (d0 d1 : List TripleDraw) (hn : d0.length = d1.length) :
    ∃ A B, Always (genTriples0 d0) (genTriples1 d1) A B ∧ A.length = d0.length ∧ B.length = d0.length ∧
      ∀ i (hA : i < A.length) (hB : i < B.length),
        ((A[i].a != B[i].a) && (A[i].b != B[i].b)) = (A[i].c != B[i].c) :=
  let ⟨A, B, h, e⟩ := C20_pair d0 d1 hn; ⟨A, B, h.always, e⟩

example : (⟨[⟨true, false, true⟩], [⟨true, true, false⟩]⟩ : List TripleDraw × List TripleDraw).1.length =
    (⟨[⟨true, false, true⟩], [⟨true, true, false⟩]⟩ : List TripleDraw × List TripleDraw).2.length := rfl

end Verif

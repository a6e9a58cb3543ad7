import Verif.ModelShare
import Verif.LemmasPrime
import Verif.LemmasFmpz
import Mathlib.Data.Nat.Size
import Mathlib.Tactic.LinearCombination
import Mathlib.Data.Set.Card

/-!
# C03 - C05, C07 - C10: the share primitives
-/

namespace Verif

/-! ## C03 -/

private theorem loop_pow {n : BitVec 32} (hn : n.toNat < 2 ^ 31) :
    ∀ (fuel k : ℕ), k + fuel = 33 → k ≤ n.toNat.size →
      nextPow2Loop n fuel (BitVec.ofNat 32 (2 ^ k)) = some (BitVec.ofNat 32 (2 ^ n.toNat.size)) := by
  have hsz : n.toNat.size ≤ 31 := Nat.size_le.2 hn
  have h1 : (n + 1#32).toNat = n.toNat + 1 := by
    rw [BitVec.toNat_add]; apply Nat.mod_eq_of_lt; simp; omega
  intro fuel
  induction fuel with
  | zero => intro k h1 h2; omega
  | succ f ih =>
    intro k hk hks
    have hk31 : k ≤ 31 := by omega
    have hpk : 2 ^ k ≤ 2 ^ 31 := Nat.pow_le_pow_right (by norm_num) hk31
    have h2 : (BitVec.ofNat 32 (2 ^ k)).toNat = 2 ^ k := by
      rw [BitVec.toNat_ofNat]; apply Nat.mod_eq_of_lt; omega
    unfold nextPow2Loop
    by_cases hc : k < n.toNat.size
    · have hlt : 2 ^ k ≤ n.toNat := by
        by_contra hcon
        exact absurd (Nat.size_le.2 (by omega)) (by omega : ¬ n.toNat.size ≤ k)
      have : n + 1#32 > BitVec.ofNat 32 (2 ^ k) := by
        show BitVec.ofNat 32 (2 ^ k) < n + 1#32
        rw [BitVec.lt_def, h1, h2]; omega
      rw [if_pos this]
      have e : BitVec.ofNat 32 (2 ^ k) * 2#32 = BitVec.ofNat 32 (2 ^ (k + 1)) := by
        rw [pow_succ, BitVec.ofNat_mul]
      rw [e]
      exact ih (k + 1) (by omega) (by omega)
    · have hke : k = n.toNat.size := by omega
      have hgt : n.toNat < 2 ^ k := by rw [hke]; exact Nat.lt_size_self _
      have : ¬ (n + 1#32 > BitVec.ofNat 32 (2 ^ k)) := by
        show ¬ (BitVec.ofNat 32 (2 ^ k) < n + 1#32)
        rw [BitVec.lt_def, h1, h2]; omega
      rw [if_neg this, hke]

/-- C03. Below `2^31` the call returns, and the result is the least power of two strictly above the argument. -/
theorem C03_returns_least_power (n : BitVec 32) (hn : n.toNat < 2 ^ 31) :
    ∃ r, NextPow2Returns n r ∧ n.toNat < r.toNat ∧ (∃ k, r.toNat = 2 ^ k) ∧
      ∀ k, n.toNat < 2 ^ k → r.toNat ≤ 2 ^ k := by
  have hsz : n.toNat.size ≤ 31 := Nat.size_le.2 hn
  have hp : 2 ^ n.toNat.size ≤ 2 ^ 31 := Nat.pow_le_pow_right (by norm_num) hsz
  have ht : (BitVec.ofNat 32 (2 ^ n.toNat.size)).toNat = 2 ^ n.toNat.size := by
    rw [BitVec.toNat_ofNat]; apply Nat.mod_eq_of_lt; omega
  refine ⟨BitVec.ofNat 32 (2 ^ n.toNat.size), ⟨33, ?_⟩, ?_, ⟨_, ht⟩, ?_⟩
  · simpa using loop_pow hn 33 0 (by norm_num) (Nat.zero_le _)
  · rw [ht]; exact Nat.lt_size_self _
  · intro k hk
    rw [ht]
    exact Nat.pow_le_pow_right (by norm_num) (Nat.size_le.2 hk)

/-- C03. The number used by the rest of the model is what the call returns. -/
theorem C03_npow2 (n : BitVec 32) (hn : n.toNat < 2 ^ 31) :
    NextPow2Returns n (BitVec.ofNat 32 (npow2 n.toNat)) ∧
    (BitVec.ofNat 32 (npow2 n.toNat)).toNat = npow2 n.toNat := by
  have hsz : n.toNat.size ≤ 31 := Nat.size_le.2 hn
  have hp : 2 ^ n.toNat.size ≤ 2 ^ 31 := Nat.pow_le_pow_right (by norm_num) hsz
  unfold npow2
  refine ⟨⟨33, by simpa using loop_pow hn 33 0 (by norm_num) (Nat.zero_le _)⟩, ?_⟩
  rw [BitVec.toNat_ofNat]; apply Nat.mod_eq_of_lt; omega

private theorem loop_stuck {n : BitVec 32} (hn : n + 1#32 ≠ 0#32) : ∀ fuel, nextPow2Loop n fuel 0#32 = none := by
  intro fuel
  induction fuel with
  | zero => rfl
  | succ f ih =>
    unfold nextPow2Loop
    have : n + 1#32 > 0#32 := by
      show 0#32 < n + 1#32
      rw [BitVec.lt_def]
      have : (n + 1#32).toNat ≠ 0 := fun h => hn (BitVec.eq_of_toNat_eq (by simpa using h))
      simpa using Nat.pos_of_ne_zero this
    rw [if_pos this]
    simpa using ih

/-- C03. From `2^31` to `2^32 - 2` the call never returns. -/
theorem C03_diverges (n : BitVec 32) (h1 : 2 ^ 31 ≤ n.toNat) (h2 : n.toNat < 2 ^ 32 - 1) :
    NextPow2Diverges n := by
  have hn1 : (n + 1#32).toNat = n.toNat + 1 := by
    rw [BitVec.toNat_add]; apply Nat.mod_eq_of_lt; simp; omega
  have hne : n + 1#32 ≠ 0#32 := fun h => by rw [h] at hn1; simp at hn1
  have key : ∀ (k fuel : ℕ), k ≤ 32 → nextPow2Loop n fuel (BitVec.ofNat 32 (2 ^ (32 - k))) = none := by
    intro k
    induction k with
    | zero => intro fuel _; simpa using loop_stuck hne fuel
    | succ k ih =>
      intro fuel hk
      cases fuel with
      | zero => rfl
      | succ f =>
        unfold nextPow2Loop
        have hle : 2 ^ (32 - (k + 1)) ≤ 2 ^ 31 := Nat.pow_le_pow_right (by norm_num) (by omega)
        have ht : (BitVec.ofNat 32 (2 ^ (32 - (k + 1)))).toNat = 2 ^ (32 - (k + 1)) := by
          rw [BitVec.toNat_ofNat]; apply Nat.mod_eq_of_lt; omega
        have : n + 1#32 > BitVec.ofNat 32 (2 ^ (32 - (k + 1))) := by
          show BitVec.ofNat 32 _ < n + 1#32
          rw [BitVec.lt_def, hn1, ht]; omega
        rw [if_pos this]
        have e : BitVec.ofNat 32 (2 ^ (32 - (k + 1))) * 2#32 = BitVec.ofNat 32 (2 ^ (32 - k)) := by
          have : 32 - k = (32 - (k + 1)) + 1 := by omega
          rw [this, pow_succ, BitVec.ofNat_mul]
        rw [e]
        exact ih f (by omega)
  intro fuel
  simpa using key 32 fuel (le_refl _)

/-- C03. At the largest argument `n + 1` wraps to 0 and the call returns 1. -/
theorem C03_max_returns_one : NextPow2Returns (BitVec.ofNat 32 (2 ^ 32 - 1)) 1#32 := ⟨1, by decide⟩

/-- Non-vacuity of the three ranges. -/
example : ∃ r, NextPow2Returns 2#32 r ∧ r = 4#32 := ⟨_, ⟨3, rfl⟩, rfl⟩
example : NextPow2Diverges (BitVec.ofNat 32 (2 ^ 31)) := C03_diverges _ (by decide) (by decide)

/-! ## C04, C05 -/

/-- C04. Both outputs are canonical and add up to the input, for every integer input and every draw. -/
theorem C04_split_reconstructs (val r : ℤ) (hr : IsDraw r intModulus) :
    Canon (splitShare intModulus r val).1 intModulus ∧ Canon (splitShare intModulus r val).2 intModulus ∧
    ((splitShare intModulus r val).1 + (splitShare intModulus r val).2) ≡ val [ZMOD intModulus] := by
  refine ⟨hr, fmod_canon _, ?_⟩
  rw [← ZMod.intCast_eq_intCast_iff]
  simp [splitShare]

/-- Non-vacuity: a negative, unreduced input. -/
example : splitShare intModulus 5 (-3) = (5, 140737597931513) := by decide

/-- C05. For every secret and every possible share value there is exactly one draw that produces this value as
server 0's share and exactly one that produces it as server 1's share. -/
theorem C05_share_hides (val s : ℤ) (hs : Canon s intModulus) :
    (∃! r, IsDraw r intModulus ∧ (splitShare intModulus r val).1 = s) ∧
    (∃! r, IsDraw r intModulus ∧ (splitShare intModulus r val).2 = s) := by
  refine ⟨⟨s, ⟨hs, rfl⟩, fun r h => h.2⟩, ⟨fmod (val - s) intModulus, ⟨fmod_canon _, ?_⟩, ?_⟩⟩
  · apply canon_eq_of_cast (fmod_canon _) hs
    simp
  · rintro r ⟨hr, he⟩
    apply canon_eq_of_cast hr (fmod_canon _)
    have := congrArg (fun z : ℤ => (z : ZMod intModulus)) he
    simp only [splitShare, fmod_cast, Int.cast_sub] at this ⊢
    rw [← this]; ring

/-- Non-vacuity. -/
example : Canon 7 intModulus := by unfold Canon intModulus; norm_num

/-! ## C07 -/

/-- What a user of a shared triple relies on. -/
def TriplesMultiply (p : ℕ) (s t : Triple) : Prop :=
  (s.A + t.A) * (s.B + t.B) ≡ s.C + t.C [ZMOD p]

/-- C07. Shares of a fresh dealer triple multiply, and all six components are canonical. -/
theorem C07_dealer_triple (a b ra rb rc : ℤ) (hra : IsDraw ra intModulus) (hrb : IsDraw rb intModulus)
    (hrc : IsDraw rc intModulus) :
    let s := beaverTripleShares intModulus ra rb rc (newBeaverTriple intModulus a b)
    TriplesMultiply intModulus s.1 s.2 ∧
    (s.1.A + s.2.A ≡ a [ZMOD intModulus]) ∧ (s.1.B + s.2.B ≡ b [ZMOD intModulus]) ∧
    (∀ x ∈ [s.1.A, s.1.B, s.1.C, s.2.A, s.2.B, s.2.C], Canon x intModulus) := by
  refine ⟨?_, ?_, ?_, ?_⟩
  · unfold TriplesMultiply
    rw [← ZMod.intCast_eq_intCast_iff]
    simp [beaverTripleShares, newBeaverTriple, splitShare]
  · rw [← ZMod.intCast_eq_intCast_iff]; simp [beaverTripleShares, newBeaverTriple, splitShare]
  · rw [← ZMod.intCast_eq_intCast_iff]; simp [beaverTripleShares, newBeaverTriple, splitShare]
  · intro x hx
    simp only [beaverTripleShares, splitShare, List.mem_cons, List.not_mem_nil, or_false] at hx
    rcases hx with rfl | rfl | rfl | rfl | rfl | rfl <;> first | assumption | exact fmod_canon _

/-- C07. The lazily dealt triple multiplies. -/
theorem C07_lazy_triple (a0 b0 c0 a1 b1 : ℤ) :
    TriplesMultiply intModulus (lazyTriple intModulus a0 b0 c0 a1 b1).1
      (lazyTriple intModulus a0 b0 c0 a1 b1).2 := by
  unfold TriplesMultiply
  rw [← ZMod.intCast_eq_intCast_iff]
  simp [lazyTriple]

/-- Non-vacuity: a concrete shared triple for 6 * 7. -/
example : beaverTripleShares intModulus 1 2 3 (newBeaverTriple intModulus 6 7) = (⟨1, 2, 3⟩, ⟨5, 5, 39⟩) := by
  decide

/-! ## C08, C09 -/

/-- The bit shared by a pair of daBits, as a specification: the boolean parts XOR to it and the modular parts add
to it. -/
def DaBitPair (p : ℕ) (s t : DaBit) (b : Bool) : Prop :=
  (s.b2 ^^ t.b2) = b ∧ s.bp + t.bp ≡ (if b then 1 else 0) [ZMOD p] ∧ Canon s.bp p ∧ Canon t.bp p

/-- The shape of server 1's modular part: no wrap beyond one. -/
theorem dabit_bp1 {p : ℕ} {bit r : ℤ} (h : IsDaDraw p bit r) :
    (makeLocalDaBit p bit r).2.bp = p - 1 - r := by
  obtain ⟨hb, h0, h1⟩ := h
  simp only [makeLocalDaBit, fmod]
  have hr : bit - (r + (bit + 1)) = (p - 1 - r) + p * (-1) := by ring
  rw [hr, Int.add_mul_emod_self_left]
  apply Int.emod_eq_of_lt <;> rcases hb with rfl | rfl <;> omega

/-- C08, for any odd modulus. -/
theorem dabit_local (p : ℕ) (hp : p % 2 = 1) (bit r : ℤ) (h : IsDaDraw p bit r) :
    DaBitPair p (makeLocalDaBit p bit r).1 (makeLocalDaBit p bit r).2 (bit = 1) := by
  have h2 := dabit_bp1 h
  have hd := h
  obtain ⟨hb, h0, h1⟩ := h
  have h1' : (makeLocalDaBit p bit r).1.bp = r + (bit + 1) := rfl
  have hb2 : (makeLocalDaBit p bit r).1.b2 = isOdd (r + (bit + 1)) := rfl
  have hb3 : (makeLocalDaBit p bit r).2.b2 = !isOdd (p - 1 - r) := by
    rw [← h2]; rfl
  refine ⟨?_, ?_, ?_, ?_⟩
  · rw [hb2, hb3]
    unfold isOdd
    have hpz : (p : ℤ) % 2 = 1 := by exact_mod_cast hp
    rcases hb with rfl | rfl
    · by_cases hc : (r + (0 + 1)) % 2 = 1
      · have e : ¬ ((p : ℤ) - 1 - r) % 2 = 1 := by omega
        rw [decide_eq_true hc, decide_eq_false e]; rfl
      · have e : ((p : ℤ) - 1 - r) % 2 = 1 := by omega
        rw [decide_eq_false hc, decide_eq_true e]; rfl
    · by_cases hc : (r + (1 + 1)) % 2 = 1
      · have e : ((p : ℤ) - 1 - r) % 2 = 1 := by omega
        rw [decide_eq_true hc, decide_eq_true e]; rfl
      · have e : ¬ ((p : ℤ) - 1 - r) % 2 = 1 := by omega
        rw [decide_eq_false hc, decide_eq_false e]; rfl
  · rw [h1', h2]
    have : r + (bit + 1) + (p - 1 - r) = bit + p := by ring
    rw [this]
    have : (if (decide (bit = 1)) = true then (1 : ℤ) else 0) = bit := by rcases hb with rfl | rfl <;> simp
    rw [this]
    exact Int.add_modEq_right
  · rw [h1']; constructor <;> rcases hb with rfl | rfl <;> omega
  · rw [h2]; constructor <;> rcases hb with rfl | rfl <;> omega

/-- C08. Every locally dealt daBit is consistent. -/
theorem C08_local_dabit (bit r : ℤ) (h : IsDaDraw intModulus bit r) :
    DaBitPair intModulus (makeLocalDaBit intModulus bit r).1 (makeLocalDaBit intModulus bit r).2 (bit = 1) :=
  dabit_local _ (by decide) bit r h

/-- Non-vacuity, and the dependence on the modulus being odd: for modulus 10 the same code breaks. -/
example : IsDaDraw intModulus 1 4 := by unfold IsDaDraw intModulus; norm_num
example : ¬ DaBitPair 10 (makeLocalDaBit 10 1 4).1 (makeLocalDaBit 10 1 4).2 true := by
  intro h; exact absurd h.1 (by decide)
/-- Dependence on the adjusted range: drawing from the whole field breaks consistency. -/
theorem C08_needs_adjusted_range :
    ¬ DaBitPair intModulus (makeLocalDaBit intModulus 1 (intModulus - 2)).1
      (makeLocalDaBit intModulus 1 (intModulus - 2)).2 true := by
  unfold DaBitPair; intro h; exact absurd h.2.2.1.2 (by decide)

/-- C09 is false: the record with modular part 1 is dealt to server 0 for bit 0 and never for bit 1. -/
theorem C09_false_server0_leak :
    (∃ r, IsDaDraw intModulus 0 r ∧ (makeLocalDaBit intModulus 0 r).1 = ⟨1, true⟩) ∧
    ¬ ∃ r, IsDaDraw intModulus 1 r ∧ (makeLocalDaBit intModulus 1 r).1 = ⟨1, true⟩ := by
  constructor
  · exact ⟨0, by unfold IsDaDraw intModulus; norm_num, by decide⟩
  · rintro ⟨r, ⟨_, h0, _⟩, h⟩
    have := congrArg DaBit.bp h
    simp only [makeLocalDaBit] at this
    omega

/-- C09. Server 1 has the same defect: modular part 1 arises for bit 0 and never for bit 1. -/
theorem C09_false_server1_leak :
    (∃ r, IsDaDraw intModulus 0 r ∧ (makeLocalDaBit intModulus 0 r).2.bp = 1) ∧
    ¬ ∃ r, IsDaDraw intModulus 1 r ∧ (makeLocalDaBit intModulus 1 r).2.bp = 1 := by
  constructor
  · refine ⟨intModulus - 2, by unfold IsDaDraw intModulus; norm_num, ?_⟩
    rw [dabit_bp1 (by unfold IsDaDraw intModulus; norm_num)]; ring
  · rintro ⟨r, hr, h⟩
    rw [dabit_bp1 hr] at h
    obtain ⟨_, _, h1⟩ := hr
    omega

/-- C09, what holds: every other record of server 0 arises from exactly one draw for either bit, with the same
boolean part. -/
theorem C09_server0_hiding_partial (v : ℤ) (h2 : 2 ≤ v) (hv : v < intModulus) (bit : ℤ) (hb : bit = 0 ∨ bit = 1) :
    ∃! r, IsDaDraw intModulus bit r ∧ (makeLocalDaBit intModulus bit r).1 = ⟨v, isOdd v⟩ := by
  refine ⟨v - (bit + 1), ⟨⟨hb, ?_, ?_⟩, ?_⟩, ?_⟩
  · rcases hb with rfl | rfl <;> omega
  · omega
  · simp [makeLocalDaBit]
  · rintro r ⟨_, h⟩
    have := congrArg DaBit.bp h
    simp only [makeLocalDaBit] at this
    omega

/-- C09, what holds for server 1: every modular part from 2 on arises from exactly one draw for either bit, with the
same boolean part. -/
theorem C09_server1_hiding_partial (v : ℤ) (h2 : 2 ≤ v) (hv : v < intModulus) (bit : ℤ) (hb : bit = 0 ∨ bit = 1) :
    ∃! r, IsDaDraw intModulus bit r ∧ (makeLocalDaBit intModulus bit r).2 = ⟨v, !isOdd v⟩ := by
  have hd : IsDaDraw intModulus bit (intModulus - 1 - v) := by
    refine ⟨hb, ?_, ?_⟩ <;> rcases hb with rfl | rfl <;> omega
  have e := dabit_bp1 hd
  refine ⟨intModulus - 1 - v, ⟨hd, ?_⟩, ?_⟩
  · have e' : (makeLocalDaBit intModulus bit (intModulus - 1 - v)).2.bp = v := by rw [e]; ring
    have e2 : (makeLocalDaBit intModulus bit (intModulus - 1 - v)).2.b2 =
      !isOdd (makeLocalDaBit intModulus bit (intModulus - 1 - v)).2.bp := rfl
    rw [e'] at e2
    rw [← e2]; nth_rewrite 2 [← e']; rfl
  · rintro r ⟨hr, h⟩
    have := congrArg DaBit.bp h
    rw [dabit_bp1 hr] at this
    simp only at this
    omega

example : ∃ v : ℤ, 2 ≤ v ∧ v < intModulus := ⟨2, by norm_num, by decide⟩

/-! ## C10 -/

/-- Value of a little-endian bit list, as an integer (specification). -/
def bitsVal : List Bool → ℤ
  | [] => 0
  | b :: bs => (if b then 1 else 0) + 2 * bitsVal bs

private theorem edaLoop_spec (ds : List (ℤ × ℤ)) :
    ∀ r0 r1 pow : ℤ, (∀ d ∈ ds, IsDaDraw intModulus d.1 d.2) →
    let e := edaLoop intModulus ds r0 r1 pow
    e.1.b.length = ds.length ∧ e.2.b.length = ds.length ∧
    ((e.1.r + e.2.r : ℤ) : ZMod intModulus) =
      ((r0 + r1 + pow * bitsVal (List.zipWith xor e.1.b e.2.b) : ℤ) : ZMod intModulus) := by
  induction ds with
  | nil => intro r0 r1 pow _; simp [edaLoop, bitsVal]
  | cons d ds ih =>
    intro r0 r1 pow hd
    obtain ⟨bit, r⟩ := d
    have hD := C08_local_dabit bit r (hd _ (List.mem_cons_self ..))
    have := ih (fmod (r0 + pow * (makeLocalDaBit intModulus bit r).1.bp) intModulus)
      (fmod (r1 + pow * (makeLocalDaBit intModulus bit r).2.bp) intModulus) (fmod (pow * 2) intModulus)
      (fun d h => hd d (List.mem_cons_of_mem _ h))
    obtain ⟨l0, l1, hs⟩ := this
    refine ⟨by simp [edaLoop, l0], by simp [edaLoop, l1], ?_⟩
    simp only [edaLoop, List.zipWith_cons_cons, bitsVal]
    rw [hs]
    have hsum := (ZMod.intCast_eq_intCast_iff _ _ _).2 hD.2.1
    rw [hD.1]
    push_cast at hsum ⊢
    simp only [fmod_cast]
    push_cast
    linear_combination (pow : ZMod intModulus) * hsum

/-- C10. The two edaBits have `n` bits each, canonical modular parts, and the modular parts add up to the number whose
bits are the XORs of the boolean parts. -/
theorem C10_edabit (ds : List (ℤ × ℤ)) (h : ∀ d ∈ ds, IsDaDraw intModulus d.1 d.2) :
    let e := makeLocalEdaBit intModulus ds
    e.1.b.length = ds.length ∧ e.2.b.length = ds.length ∧
    (e.1.r + e.2.r ≡ bitsVal (List.zipWith xor e.1.b e.2.b) [ZMOD intModulus]) := by
  obtain ⟨h1, h2, h3⟩ := edaLoop_spec ds 0 0 1 h
  refine ⟨h1, h2, ?_⟩
  rw [← ZMod.intCast_eq_intCast_iff]
  simpa [makeLocalEdaBit] using h3

/-- Non-vacuity: the edaBit of the three bits 1, 0, 1. -/
example : let e := makeLocalEdaBit intModulus [(1, 10), (0, 3), (1, 99)]
    bitsVal (List.zipWith xor e.1.b e.2.b) = 5 ∧ fmod (e.1.r + e.2.r) intModulus = 5 := by decide

end Verif

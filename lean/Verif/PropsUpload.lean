import Verif.PropsKeys
import Verif.PropsMain
import Verif.PropsStale

/-!
# C59: from the client program to the answer printed by server 0
-/

namespace Verif

/-! ## Keys of one run are distinct -/

/-- `random_bool` moves on, and not too far (two blocks more than needed are used at most, because of alignment). -/
def Prg.Steady (g : Prg) : Prop := ∀ p n, p < g.next p n ∧ g.next p n ≤ p + n / 16 + 2

/-- `one` takes between 1 and `c` blocks of a generator whose cipher and bits stay the same. -/
def Takes1 {ρ α : Type} (one : Prg → (ρ × α × α) × Prg) (c : ℕ) : Prop :=
  ∀ g : Prg, g.Steady → ∃ p, g.pos < p ∧ p ≤ g.pos + c ∧ (one g).2 = { g with pos := p }

theorem pos_bounds {ρ α : Type} {one : Prg → (ρ × α × α) × Prg} {c : ℕ} (h : Takes1 one c) : ∀ (i : ℕ) (g : Prg), g.Steady →
    ∃ p, g.pos + i ≤ p ∧ p ≤ g.pos + c * i ∧ posAfter one i g = { g with pos := p }
  | 0, g, _ => ⟨g.pos, le_refl _, by simp, rfl⟩
  | i + 1, g, hg => by
    obtain ⟨p, h1, h2, h3⟩ := h g hg
    obtain ⟨q, h4, h5, h6⟩ := pos_bounds h i (one g).2 (by rw [h3]; exact hg)
    rw [h3] at h4 h5
    dsimp only at h4 h5
    refine ⟨q, by omega, by rw [Nat.mul_succ]; omega, ?_⟩
    rw [posAfter, h6, h3]

theorem pos_lt {ρ α : Type} {one : Prg → (ρ × α × α) × Prg} {c : ℕ} (h : Takes1 one c) (g : Prg) (hg : g.Steady) {i j : ℕ} (hij : i < j) :
    (posAfter one i g).pos < (posAfter one j g).pos := by
  obtain ⟨d, rfl⟩ : ∃ d, j = i + (d + 1) := ⟨j - i - 1, by omega⟩
  have add : ∀ (i d : ℕ) (g : Prg), posAfter one (i + d) g = posAfter one d (posAfter one i g) := by
    intro i
    induction i with
    | zero => intro d g; rw [Nat.zero_add]; rfl
    | succ i ih => intro d g; rw [Nat.add_right_comm, posAfter, ih]; rfl
  obtain ⟨p, -, -, e⟩ := pos_bounds h i g hg
  obtain ⟨q, h1, -, e'⟩ := pos_bounds h (d + 1) (posAfter one i g) (by rw [e]; exact hg)
  rw [add, e']
  dsimp only
  omega

/-- C59: a run never uses a key twice, as AES is a permutation and each key is made from a block of its own (as long as the 64-bit counter
does not wrap around). -/
theorem C59_keys_distinct {ρ α : Type} {one : Prg → (ρ × α × α) × Prg} {c : ℕ} (h : Takes1 one c) {n : ℕ} {g : Prg} (hg : g.Steady)
    (ha : Function.Injective g.aes) (hc : g.pos + c * n < 2 ^ 64) : ((uploadLoop one n g).map (·.pk)).Nodup := by
  rw [List.nodup_iff_injective_getElem]
  have hpk : ∀ i (hi : i < ((uploadLoop one n g).map (·.pk)).length),
      ((uploadLoop one n g).map (·.pk))[i] = makePk (posAfter one (i + 1) g) := by
    intro i hi
    have := upload_get one n i g (by simpa [upload_length] using hi)
    rw [List.getElem_map]
    rw [List.getElem?_eq_some_iff] at this
    obtain ⟨h', e⟩ := this
    rw [e]
  intro i j hij
  simp only [hpk] at hij
  have hlen : ((uploadLoop one n g).map (·.pk)).length = n := by simp [upload_length]
  obtain ⟨p, -, p2, ep⟩ := pos_bounds h (i + 1) g hg
  obtain ⟨q, -, q2, eq⟩ := pos_bounds h (j + 1) g hg
  have hi := i.isLt
  have hj := j.isLt
  have e : p = q := by
    rw [ep, eq] at hij
    have := ha (C54_injective hij)
    have hp : p < 2 ^ 64 := lt_of_le_of_lt (p2.trans (Nat.add_le_add_left (Nat.mul_le_mul_left _ (by omega)) _)) hc
    have hq : q < 2 ^ 64 := lt_of_le_of_lt (q2.trans (Nat.add_le_add_left (Nat.mul_le_mul_left _ (by omega)) _)) hc
    have := congrArg BitVec.toNat this
    simp only [BitVec.toNat_setWidth, BitVec.toNat_ofNat] at this
    rw [Nat.mod_eq_of_lt hp, Nat.mod_eq_of_lt hq, Nat.mod_eq_of_lt (by omega), Nat.mod_eq_of_lt (by omega)] at this
    exact this
  by_contra hne
  have hne : (i : ℕ) ≠ j := fun h => hne (Fin.ext h)
  rcases Nat.lt_or_gt_of_ne hne with hlt | hlt
  · have := pos_lt h g hg (show (i : ℕ) + 1 < j + 1 by omega)
    rw [ep, eq] at this; dsimp only at this; omega
  · have := pos_lt h g hg (show (j : ℕ) + 1 < i + 1 by omega)
    rw [ep, eq] at this; dsimp only at this; omega

/-- C59: the blocks used per submission by the operations. -/
theorem C59_bit_blocks : Takes1 bitOne 4 := by
  intro g hg
  obtain ⟨a1, a2⟩ := hg g.pos 1
  obtain ⟨b1, b2⟩ := hg (g.next g.pos 1) 1
  exact ⟨g.next (g.next g.pos 1) 1, by omega, by omega, rfl⟩

theorem C59_int_blocks (nbits : ℕ) : Takes1 (intOne nbits) 2 := fun g _ => ⟨g.pos + 1 + 1, by omega, by omega, rfl⟩

theorem C59_xor_blocks (isAnd : Bool) : Takes1 (xorOne isAnd) 4 := by
  intro g hg
  obtain ⟨a1, a2⟩ := hg g.pos 1
  by_cases h : g.bit g.pos 1 0 = isAnd
  · exact ⟨g.next g.pos 1 + 1, by omega, by omega, by simp [xorOne, Prg.bool, Prg.word, h]⟩
  · exact ⟨g.next g.pos 1 + 1 + 1, by omega, by omega, by simp [xorOne, Prg.bool, Prg.word, h]⟩

theorem C59_max_blocks (isMax : Bool) (B : ℕ) : Takes1 (maxOne isMax B) (B + 3) := by
  intro g _
  exact ⟨g.pos + 1 + (B + 1 + 1) / 2 + (B + 1 + 1) / 2, by omega, by omega, rfl⟩

theorem C59_freq_blocks (nbits : ℕ) : Takes1 (freqOne nbits) ((1#64 <<< nbits : U64).toNat / 16 + 3) := by
  intro g hg
  obtain ⟨a1, a2⟩ := hg (g.pos + 1) (1#64 <<< nbits : U64).toNat
  exact ⟨g.next (g.pos + 1) (1#64 <<< nbits : U64).toNat, by omega, by omega, rfl⟩

/-! ## From the rows to the answers -/

section
variable {ρ α : Type} {one : Prg → (ρ × α × α) × Prg}

theorem upload_mem : ∀ {n : ℕ} {g : Prg} {r : Row ρ α}, r ∈ uploadLoop one n g →
    ∃ g', r = ⟨makePk (one g').2, (one g').1.1, (one g').1.2.1, (one g').1.2.2⟩
  | 0, g, r, h => by cases h
  | n + 1, g, r, h => by
    rcases List.mem_cons.1 h with rfl | h
    · exact ⟨g, rfl⟩
    · exact upload_mem h

theorem upload_keyed {n : ℕ} {g : Prg} : Keyed (sent0 (uploadLoop one n g)) ∧ Keyed (sent1 (uploadLoop one n g)) := by
  constructor <;>
  · intro e he
    obtain ⟨r, hr, rfl⟩ := List.mem_map.1 he
    obtain ⟨g', rfl⟩ := upload_mem hr
    exact C54_length _

theorem sum_keys {M : Type} [AddCommMonoid M] {rows : List (Row ρ α)} (hn : (rows.map (·.pk)).Nodup) (F : Bytes → M) :
    ∑ k ∈ (rows.map (·.pk)).toFinset, F k = (rows.map fun r => F r.pk).sum := by
  rw [List.sum_toFinset _ hn, List.map_map]; rfl

theorem opens_init (t : BitVec 32) {n : ℕ} (hn : n < 2 ^ 32) (mx : BitVec 32) (body : Bytes) :
    Opens t n none (encInit (initMsg t n mx) ++ body) body := ⟨hn, mx, by simp, rfl⟩

end

/-! ## Both halves of a run: the streams of the client program, and the two servers -/

/-- The two servers in some common state, the streams of the two connections, any iteration order of server 1's maps. -/
structure Ready (e0 e1 : Env) (s0 s1 : Srv) (a b : Bytes) : Prop where
  stream0 : e0.stream = a
  stream1 : e1.stream = b
  ord : ∀ α : Type, IsOrder (e1.ord (α := α))
  draw : Canon e1.draw intModulus
  step : ∃ y, InStep y s0 s1

/-- C59 for BIT_SUM: whatever the client program draws, the two servers (in step, at any time of a session, for every schedule and iteration
order) answer with the number of ones among the clients' bits, and this is what the client program prints. -/
theorem C59_bit_sum (c : StoreCfg) {g0 g1 : StoreRng} (hg : GoodRng intModulus g0) {nbits : ℕ} (coef : ℕ → ℤ) {n : ℕ} (hn : n < 2 ^ 32) (mx : BitVec 32)
    (g : Prg) (hk : ((uploadLoop bitOne n g).map (·.pk)).Nodup) {e0 e1 : Env} {s0 s1 : Srv}
    (h : Ready e0 e1 s0 s1 (bitSumClient n mx g).1 (bitSumClient n mx g).2.1) :
    ∃ s0' s1', Always (iteration false c g0 nbits coef e0 s0) (iteration true c g1 nbits coef e1 s1)
        (.word (.ans (BitVec.ofNat 64 (((uploadLoop bitOne n g).map (·.real)).count true))), s0') (.word .noAns, s1') ∧
      (∃ y, InStep y s0' s1') ∧ (bitSumClient n mx g).2.2.toNat = ((uploadLoop bitOne n g).map (·.real)).count true := by
  obtain ⟨y, hy⟩ := h.step
  obtain ⟨k0, k1⟩ := upload_keyed (one := bitOne) (n := n) (g := g)
  have l0 : (sent0 (uploadLoop bitOne n g)).length = n := by simp [sent0, upload_length]
  have l1 : (sent1 (uploadLoop bitOne n g)).length = n := by simp [sent1, upload_length]
  obtain ⟨a, s0', s1', hP, hA, hI⟩ := iteration_pair c (g1 := g1) hg (nbits := nbits) coef
    (b := .bitSum (sent0 (uploadLoop bitOne n g)) (sent1 (uploadLoop bitOne n g))) (e0 := e0) (e1 := e1)
    ⟨[], [], by rw [h.stream0, l0, List.append_nil]; exact opens_init _ hn _ _, by rw [h.stream1, l1, List.append_nil]; exact opens_init _ hn _ _⟩
    ⟨k0, k1⟩ h.ord h.draw hy
  obtain ⟨hf, hb⟩ := bothKeys_honest (uploadLoop bitOne n g) (·.pk) (·.share0) (·.share1) hk _ _ (List.Perm.refl _) (List.Perm.refl _)
  have hsh : ∀ r ∈ uploadLoop bitOne n g, r.share1 = (r.share0 ^^ r.real) := by
    intro r hr
    obtain ⟨g', rfl⟩ := upload_mem hr
    rfl
  have hcnt : bitCount (sent0 (uploadLoop bitOne n g)) (sent1 (uploadLoop bitOne n g)) = ((uploadLoop bitOne n g).map (·.real)).count true := by
    unfold bitCount
    rw [Finset.card_filter, show bothKeys (fun _ => true) (sent0 (uploadLoop bitOne n g)) (sent1 (uploadLoop bitOne n g)) = _ from hb,
      sum_keys hk, List.count_eq_countP, List.countP_map, List.countP_eq_length_filter]
    have e : (uploadLoop bitOne n g).map (fun r => if firstOf (fun _ => true) (sent0 (uploadLoop bitOne n g)) r.pk ≠
        firstOf (fun _ => true) (sent1 (uploadLoop bitOne n g)) r.pk then 1 else 0) =
        (uploadLoop bitOne n g).map fun r => if r.real then 1 else 0 := by
      refine List.map_congr_left fun r hr => ?_
      have := hf r hr
      rw [show firstOf (fun _ => true) (sent0 (uploadLoop bitOne n g)) r.pk = _ from this.1,
        show firstOf (fun _ => true) (sent1 (uploadLoop bitOne n g)) r.pk = _ from this.2, hsh r hr]
      cases r.share0 <;> cases r.real <;> simp
    rw [e]
    clear * -
    induction uploadLoop bitOne n g with
    | nil => rfl
    | cons r l ih => cases hr : r.real <;> simp [hr, ih, Nat.add_comm]
  have hcard : (bothKeys (fun _ => true) (sent0 (uploadLoop bitOne n g)) (sent1 (uploadLoop bitOne n g))).card = n := by
    rw [show bothKeys (fun _ => true) (sent0 (uploadLoop bitOne n g)) (sent1 (uploadLoop bitOne n g)) = _ from hb,
      List.toFinset_card_of_nodup hk, List.length_map, upload_length]
  refine ⟨s0', s1', ?_, ⟨_, hI⟩, ?_⟩
  · have hA : a = _ := hA
    rw [hcard, l0, verdict_full, hcnt] at hA
    rw [hA] at hP
    exact hP.always
  · show (bitAns (uploadLoop bitOne n g)).toNat = _
    have key : ∀ (l : List (Row Bool Bool)) (s : BitVec 32), s.toNat + l.length < 2 ^ 32 →
        (l.foldl (fun s r => s + if r.real then 1#32 else 0#32) s).toNat = s.toNat + (l.map (·.real)).count true := by
      intro l
      induction l with
      | nil => intro s _; simp
      | cons r l ih =>
        intro s hs
        rw [List.length_cons] at hs
        have e : (s + if r.real then 1#32 else 0#32).toNat = s.toNat + if r.real then 1 else 0 := by
          cases r.real
          · simp
          · simp only [if_true, BitVec.toNat_add, BitVec.toNat_ofNat]; omega
        rw [List.foldl_cons, ih _ (by rw [e]; split <;> omega), e]
        cases hr : r.real <;> simp [hr]; omega
    have := key (uploadLoop bitOne n g) 0#32 (by rw [upload_length]; simpa using hn)
    simpa [bitAns] using this

/-- C59 for INT_SUM, widths up to 63 bits: the answer is the sum of the clients' values modulo 2^64, and this is what the client program
prints. -/
theorem C59_int_sum (c : StoreCfg) {g0 g1 : StoreRng} (hg : GoodRng intModulus g0) {nbits : ℕ} (hb : nbits ≤ 63) (coef : ℕ → ℤ) {n : ℕ} (hn : n < 2 ^ 32)
    (mx : BitVec 32) (g : Prg) (hk : ((uploadLoop (intOne nbits) n g).map (·.pk)).Nodup) {e0 e1 : Env} {s0 s1 : Srv}
    (h : Ready e0 e1 s0 s1 (intSumClient nbits n mx g).1 (intSumClient nbits n mx g).2.1) :
    ∃ s0' s1', Always (iteration false c g0 nbits coef e0 s0) (iteration true c g1 nbits coef e1 s1)
        (.word (.ans (BitVec.ofNat 64 ((uploadLoop (intOne nbits) n g).map fun r => r.real.toNat).sum)), s0') (.word .noAns, s1') ∧
      (∃ y, InStep y s0' s1') ∧ (intSumClient nbits n mx g).2.2 = BitVec.ofNat 64 ((uploadLoop (intOne nbits) n g).map fun r => r.real.toNat).sum := by
  obtain ⟨y, hy⟩ := h.step
  obtain ⟨k0, k1⟩ := upload_keyed (one := intOne nbits) (n := n) (g := g)
  have l0 : (sent0 (uploadLoop (intOne nbits) n g)).length = n := by simp [sent0, upload_length]
  have l1 : (sent1 (uploadLoop (intOne nbits) n g)).length = n := by simp [sent1, upload_length]
  obtain ⟨a, s0', s1', hP, hA, hI⟩ := iteration_pair c (g1 := g1) hg (nbits := nbits) coef
    (b := .intSum (sent0 (uploadLoop (intOne nbits) n g)) (sent1 (uploadLoop (intOne nbits) n g))) (e0 := e0) (e1 := e1)
    ⟨[], [], by rw [h.stream0, l0, List.append_nil]; exact opens_init _ hn _ _, by rw [h.stream1, l1, List.append_nil]; exact opens_init _ hn _ _⟩
    ⟨k0, k1, by omega⟩ h.ord h.draw hy
  have hmod : ∀ a : U64, (a % (1#64 <<< nbits)).toNat = a.toNat % 2 ^ nbits := mod_shl (by omega)
  have hsh : ∀ r ∈ uploadLoop (intOne nbits) n g, r.share1 = r.share0 ^^^ r.real ∧ r.share0.toNat < 2 ^ nbits ∧ r.real.toNat < 2 ^ nbits := by
    intro r hr
    obtain ⟨g', rfl⟩ := upload_mem hr
    refine ⟨rfl, ?_, ?_⟩
    · show (_ % (1#64 <<< nbits) : U64).toNat < _
      rw [hmod]; exact Nat.mod_lt _ (by positivity)
    · show (_ % (1#64 <<< nbits) : U64).toNat < _
      rw [hmod]; exact Nat.mod_lt _ (by positivity)
  obtain ⟨hf, hbk⟩ := bothKeys_honest_ok (ok := belowBits nbits) (uploadLoop (intOne nbits) n g) (·.pk) (·.share0) (·.share1) hk
    (fun r hr => decide_eq_true (hsh r hr).2.1)
    (fun r hr => by
      refine decide_eq_true ?_
      rw [(hsh r hr).1, BitVec.toNat_xor]
      exact Nat.xor_lt_two_pow (hsh r hr).2.1 (hsh r hr).2.2) _ _ (List.Perm.refl _) (List.Perm.refl _)
  have hsum : ∑ k ∈ bothKeys (belowBits nbits) (sent0 (uploadLoop (intOne nbits) n g)) (sent1 (uploadLoop (intOne nbits) n g)),
      (intTerm (belowBits nbits) (sent0 (uploadLoop (intOne nbits) n g)) (sent1 (uploadLoop (intOne nbits) n g)) k).toNat =
      ((uploadLoop (intOne nbits) n g).map fun r => r.real.toNat).sum := by
    rw [show bothKeys (belowBits nbits) (sent0 (uploadLoop (intOne nbits) n g)) (sent1 (uploadLoop (intOne nbits) n g)) = _ from hbk, sum_keys hk]
    congr 1
    refine List.map_congr_left fun r hr => ?_
    have := hf r hr
    rw [intTerm, show firstOf (belowBits nbits) (sent0 (uploadLoop (intOne nbits) n g)) r.pk = _ from this.1,
      show firstOf (belowBits nbits) (sent1 (uploadLoop (intOne nbits) n g)) r.pk = _ from this.2, Option.getD_some, Option.getD_some, (hsh r hr).1,
      ← BitVec.xor_assoc, BitVec.xor_self, BitVec.zero_xor]
  have hcard : (bothKeys (belowBits nbits) (sent0 (uploadLoop (intOne nbits) n g)) (sent1 (uploadLoop (intOne nbits) n g))).card = n := by
    rw [show bothKeys (belowBits nbits) (sent0 (uploadLoop (intOne nbits) n g)) (sent1 (uploadLoop (intOne nbits) n g)) = _ from hbk,
      List.toFinset_card_of_nodup hk, List.length_map, upload_length]
  refine ⟨s0', s1', ?_, ⟨_, hI⟩, ?_⟩
  · have hA : a = _ := hA
    rw [hcard, l0, verdict_full, hsum] at hA
    rw [hA] at hP
    exact hP.always
  · show intAns (uploadLoop (intOne nbits) n g) = _
    have key : ∀ (l : List (Row U64 U64)) (s : U64), l.foldl (fun s r => s + r.real) s = s + BitVec.ofNat 64 (l.map fun r => r.real.toNat).sum := by
      intro l
      induction l with
      | nil => intro s; simp
      | cons r l ih =>
        intro s
        rw [List.foldl_cons, ih, List.map_cons, List.sum_cons, BitVec.ofNat_add, ← BitVec.add_assoc]
        simp
    have := key (uploadLoop (intOne nbits) n g) 0#64
    simpa [intAns] using this

/-! ## The hypotheses can be met -/

theorem plainPrg_steady : plainPrg.Steady := fun p n => ⟨by show p < p + n / 16 + 2; omega, le_refl _⟩

theorem plainPrg_injective : Function.Injective plainPrg.aes := by
  intro a b h
  have h : a * 0x9e3779b97f4a7c15f39cc0605cedc835#128 = b * 0x9e3779b97f4a7c15f39cc0605cedc835#128 := h
  have := congrArg (· * 0x28969101c22823532f07eb1a988d4a1d#128) h
  simpa [BitVec.mul_assoc] using this

/-- The servers right after their start. -/
theorem start_inStep {draw : ℤ} (hd : Canon draw intModulus) :
    InStep ⟨draw, 0, 0⟩ ⟨⟨RootTables.start, [], draw, 0, 0⟩, ⟨[], [], 0⟩⟩ ⟨⟨RootTables.start, [], draw, 0, 0⟩, ⟨[], [], 0⟩⟩ :=
  ⟨⟨rfl, hd, rfl, rfl, ⟨[], .start⟩, by simp⟩, ⟨rfl, hd, rfl, rfl, ⟨[], .start⟩, by simp⟩, emptyStoresOk _⟩

theorem plain_ready (a b : Bytes) : Ready (plainEnv a) (plainEnv b)
    ⟨⟨RootTables.start, [], 0, 0, 0⟩, ⟨[], [], 0⟩⟩ ⟨⟨RootTables.start, [], 0, 0, 0⟩, ⟨[], [], 0⟩⟩ a b :=
  ⟨rfl, rfl, plain_order b, zero_canon goodModulus, ⟨_, start_inStep (zero_canon goodModulus)⟩⟩

/-- A million submissions of INT_SUM and BIT_SUM at freshly started servers. -/
example (nbits : ℕ) : ((uploadLoop (intOne nbits) 1000000 plainPrg).map (·.pk)).Nodup ∧
    ((uploadLoop bitOne 1000000 plainPrg).map (·.pk)).Nodup :=
  ⟨C59_keys_distinct (C59_int_blocks nbits) plainPrg_steady plainPrg_injective (by decide),
    C59_keys_distinct C59_bit_blocks plainPrg_steady plainPrg_injective (by decide)⟩

example : ∃ e0 e1 s0 s1, Ready e0 e1 s0 s1 (bitSumClient 1000000 0 plainPrg).1 (bitSumClient 1000000 0 plainPrg).2.1 := ⟨_, _, _, _, plain_ready _ _⟩

example : (uploadLoop (intOne 5) 2 plainPrg).map (·.real) = [0, 10] ∧ (bitSumClient 3 0 plainPrg).2.2 = 3 := by decide +kernel

end Verif

import Verif.LemmasCorrelated
import Verif.LemmasFmpz

/-!
# C19, C21–C25: share conversion, multiplication, addition, and the stores
-/

namespace Verif

/-! ## C21 -/

/-- C21. The daBits generated jointly are consistent, position by position: canonical modular parts that add up to the
XOR of the boolean parts; the boolean parts are the two servers' random bits. -/
theorem C21_joint_dabits (ds : List (Bool × U64)) (bs : List Bool) (hn : ds.length = bs.length) :
    ∃ A B, Always (generateDaBit0 intModulus ds) (generateDaBit1 intModulus bs) A B ∧
      A.map (·.b2) = ds.map (·.1) ∧ B.map (·.b2) = bs ∧
      List.Forall₂ (fun a b => DaBitPair intModulus a b (a.b2 ^^ b.b2)) A B := by
  obtain ⟨A, B, h, _, hok, h1, h2⟩ := generateDaBit_pair goodModulus ds bs hn
  exact ⟨A, B, h.always, h1, h2, hok⟩

example : ([(true, 5#64), (false, 77#64)] : List (Bool × U64)).length = [true, true].length := rfl

/-! ## C22 -/

@[simp] theorem maskBits_length (x t : List Bool) (h : x.length = t.length) : (maskBits x t).length = x.length := by
  simp [maskBits, h]

theorem conv_ok {p : ℕ} (hp : GoodMod p) {A B : List DaBit} (h : List.Forall₂ (DaOk p) A B) (x0 x1 : List Bool)
    (h0 : x0.length = A.length) (h1 : x1.length = A.length) :
    let v0 := maskBits x0 (A.map (·.b2))
    let v1 := maskBits x1 (B.map (·.b2))
    let r0 := List.zipWith (convBit p false) (A.map (·.bp)) (maskBits v0 v1)
    let r1 := List.zipWith (convBit p true) (B.map (·.bp)) (maskBits v1 v0)
    (∀ a ∈ r0, Canon a p) ∧ (∀ a ∈ r1, Canon a p) ∧ r0.length = x0.length ∧ r1.length = x0.length ∧
    List.zipWith (fun a b => ((a + b : ℤ) : ZMod p)) r0 r1 = List.zipWith (fun a b => if a != b then 1 else 0) x0 x1 := by
  have : NeZero p := ⟨by have := hp.big; omega⟩
  induction h generalizing x0 x1 with
  | nil => cases x0 <;> cases x1 <;> simp_all [maskBits]
  | @cons a b A B hab _ ih =>
    cases x0 with
    | nil => simp at h0
    | cons y0 x0 =>
    cases x1 with
    | nil => simp at h1
    | cons y1 x1 =>
      have ih := ih x0 x1 (by simpa using h0) (by simpa using h1)
      simp only [maskBits, List.map_cons, List.zipWith_cons_cons] at ih ⊢
      obtain ⟨i1, i2, i3, i4, i5⟩ := ih
      obtain ⟨_, hs, hc0, hc1⟩ := hab
      have hs' : ((a.bp : ℤ) : ZMod p) + ((b.bp : ℤ) : ZMod p) = if a.b2 ^^ b.b2 then 1 else 0 := by
        have := (ZMod.intCast_eq_intCast_iff _ _ _).2 hs
        push_cast at this; rw [this]
      refine ⟨?_, ?_, ?_, ?_, ?_⟩
      · intro z hz
        rcases List.mem_cons.1 hz with rfl | hz
        · unfold convBit; split
          · exact fmod_canon _
          · exact hc0
        · exact i1 z hz
      · intro z hz
        rcases List.mem_cons.1 hz with rfl | hz
        · unfold convBit; split
          · exact fmod_canon _
          · exact hc1
        · exact i2 z hz
      · simpa using i3
      · simpa using i4
      · rw [i5]
        congr 1
        unfold convBit
        cases hA : a.b2 <;> cases hB : b.b2 <;> cases y0 <;> cases y1 <;> simp [hA, hB] at hs' ⊢ <;>
          first
            | linear_combination (1 : ZMod p) * hs'
            | linear_combination (-1 : ZMod p) * hs'

/-- C22 in compositional form. -/
theorem b2aSingle_pair {p : ℕ} (hp : GoodMod p) (c : StoreCfg) (g0 g1 : StoreRng) (hg : GoodRng p g0)
    (x0 x1 : List Bool) (hx : x0.length = x1.length) (s0 s1 : Store) (h : StoresOk p s0 s1) :
    ∃ r0 r1 s0' s1', Pair (b2aSingle p c g0 false x0 s0) (b2aSingle p c g1 true x1 s1) (r0, s0') (r1, s1') ∧
      (∀ a ∈ r0, Canon a p) ∧ (∀ a ∈ r1, Canon a p) ∧ r0.length = x0.length ∧ r1.length = x0.length ∧
      List.zipWith (fun a b => ((a + b : ℤ) : ZMod p)) r0 r1 = List.zipWith (fun a b => if a != b then 1 else 0) x0 x1 ∧
      DaStep p s0 s1 s0' s1' x0.length := by
  obtain ⟨t0, t1, hP, hok, hlen, ⟨d0, d1, e0, e1, hd⟩, htr0, htr1, _⟩ := checkDaBits_pair hp c g0 g1 hg x0.length s0 s1 h
  have hG := getDaBits_pair hp c g0 g1 hg x0.length t0 t1 hok hlen
  have hA : (t0.dabits.take x0.length).length = x0.length := by simp; exact hlen
  have hB : (t1.dabits.take x0.length).length = x0.length := by simp [← hok.len]; exact hlen
  have hAB : List.Forall₂ (DaOk p) (t0.dabits.take x0.length) (t1.dabits.take x0.length) :=
    List.forall₂_take _ hok.da
  have hv0 : (maskBits x0 ((t0.dabits.take x0.length).map (·.b2))).length = x0.length := by
    rw [maskBits_length]; simpa using hlen
  have hv1 : (maskBits x1 ((t1.dabits.take x0.length).map (·.b2))).length = x0.length := by
    rw [maskBits_length _ _ (by rw [List.length_map, hB, hx]), hx]
  have hr0 := reads_bools (maskBits x1 ((t1.dabits.take x0.length).map (·.b2)))
  have hr1 := reads_bools (maskBits x0 ((t0.dabits.take x0.length).map (·.b2)))
  rw [hv1] at hr0
  rw [hv0] at hr1
  obtain ⟨k1, k2, k3, k4, k5⟩ := conv_ok hp hAB x0 x1 hA.symm (by rw [hA, hx])
  refine ⟨_, _, ⟨t0.dabits.drop x0.length, t0.triples, t0.calls⟩, ⟨t1.dabits.drop x0.length, t1.triples, t1.calls⟩, ?_,
    k1, k2, k3, k4, k5, ?_⟩
  · unfold b2aSingle
    rw [← hx]
    exact hP.bind (hG.bind ((Pair.exch hr0 hr1).bind (Pair.ret _ _)))
  · refine ⟨⟨List.forall₂_drop _ hok.da, hok.tr⟩, ⟨d0, d1, by simp [e0], by simp [e1], hd, ?_⟩, htr0, htr1⟩
    rw [← e0]; exact hlen

/-- C22. Given consistent stores, for every schedule, every generation mode and all draws, the results are canonical, add
up entry by entry to the XOR of the two input bits, and exactly `N` daBits are taken from the front of each queue. -/
theorem C22_single_bit_conversion (c : StoreCfg) (g0 g1 : StoreRng) (hg : GoodRng intModulus g0)
    (x0 x1 : List Bool) (hx : x0.length = x1.length) (s0 s1 : Store) (h : StoresOk intModulus s0 s1) :
    ∃ r0 r1 s0' s1', Always (b2aSingle intModulus c g0 false x0 s0) (b2aSingle intModulus c g1 true x1 s1)
        (r0, s0') (r1, s1') ∧
      (∀ a ∈ r0, Canon a intModulus) ∧ (∀ a ∈ r1, Canon a intModulus) ∧ r0.length = x0.length ∧ r1.length = x0.length ∧
      List.zipWith (fun a b => ((a + b : ℤ) : ZMod intModulus)) r0 r1 =
        List.zipWith (fun a b => if a != b then 1 else 0) x0 x1 ∧
      DaStep intModulus s0 s1 s0' s1' x0.length :=
  let ⟨r0, r1, s0', s1', hP, h⟩ := b2aSingle_pair goodModulus c g0 g1 hg x0 x1 hx s0 s1 h
  ⟨r0, r1, s0', s1', hP.always, h⟩

/-- A concrete generator meeting the range condition, and the empty stores. -/
def exampleRng : StoreRng := ⟨fun _ i => (i % 2 = 0, 3#64), fun _ i => (if i % 2 = 0 then 1 else 0, i % 7), fun _ _ => ⟨true, false, true⟩⟩
theorem exampleRng_good : GoodRng intModulus exampleRng := by
  intro c i
  have : ((i : ℤ) % 7) < 7 := Int.emod_lt_of_pos _ (by norm_num)
  refine ⟨?_, ?_, ?_⟩
  · show (if i % 2 = 0 then (1 : ℤ) else 0) = 0 ∨ _
    split <;> simp [exampleRng, *]
  · exact Int.emod_nonneg _ (by norm_num)
  · show (i : ℤ) % 7 < _
    have h1 : (exampleRng.lz c i).1 ≤ 1 := by show (if i % 2 = 0 then (1 : ℤ) else 0) ≤ 1; split <;> norm_num
    have h2 : (intModulus : ℤ) = 140737597931521 := by norm_num [intModulus]
    rw [h2]; linarith
theorem emptyStoresOk (p : ℕ) : StoresOk p ⟨[], [], 0⟩ ⟨[], [], 0⟩ := ⟨.nil, .nil⟩
example : GoodRng intModulus exampleRng ∧ StoresOk intModulus ⟨[], [], 0⟩ ⟨[], [], 0⟩ := ⟨exampleRng_good, emptyStoresOk _⟩

end Verif

import Verif.LemmasFreq

/-!
# FREQ: C34, C44, C45, C46, C47, C48, C60

Theorems hold for all byte streams of sufficient length, all orders in which server 1 iterates over its map, all schedules, all ways
of making daBits and all draws.
-/

namespace Verif

/-! ## Specification -/

/-- The client connection delivers the submissions `subs`. -/
def FreqStream (w total : ℕ) (s : Bytes) (subs : List (Bytes × List Bool)) : Prop :=
  ∃ rest, ((rdFreqShare w).rep total).run s = some (subs, rest)

/-- Every submission of FREQ passes the intake. -/
def anyRow (_ : List Bool) : Bool := true

/-- The vector submitted under a key: the XOR of the two shares; where a server has none, zeros. -/
def freqVec (w : ℕ) (subs0 subs1 : List (Bytes × List Bool)) (k : Bytes) : List Bool :=
  List.zipWith (fun a b => a ^^ b) ((firstOf anyRow subs0 k).getD (List.replicate w false)) ((firstOf anyRow subs1 k).getD (List.replicate w false))

/-- The keys received by a server. -/
def keysOf (subs : List (Bytes × List Bool)) : Finset Bytes := (subs.map (·.1)).toFinset

/-- The histogram of the vectors under the keys in `G`. -/
def histogram (w : ℕ) (G : Finset Bytes) (v : Bytes → List Bool) : List ℤ :=
  (List.range w).map fun j => ((G.filter fun k => (v k).getD j false = true).card : ℤ)

/-- The total weight of the vectors under the keys of server 1. -/
def totalWeight (w : ℕ) (subs0 subs1 : List (Bytes × List Bool)) : ℕ := ∑ k ∈ keysOf subs1, weight (freqVec w subs0 subs1 k)

/-- The keys for which both servers have a share and the vector has exactly one set bit. -/
def oneHotKeys (w : ℕ) (subs0 subs1 : List (Bytes × List Bool)) : Finset Bytes :=
  (bothKeys anyRow subs0 subs1).filter fun k => weight (freqVec w subs0 subs1 k) = 1

/-- Every schedule of the two programs ends with these results and these bytes unread in the two directions. `Always` is the case of
none. -/
def Ends {α β : Type} (P0 : Proc α) (P1 : Proc β) (a : α) (b : β) (q01 q10 : Bytes) : Prop :=
  (∀ u, Steps ⟨P0, P1, [], []⟩ u → Steps u (Done a b q01 q10) ∧ (Stuck u → u = Done a b q01 q10)) ∧
  ¬ ∃ f : ℕ → Sys α β, f 0 = ⟨P0, P1, [], []⟩ ∧ ∀ i, Step (f i) (f (i + 1))

theorem Ends.ofSteps {α β : Type} {P0 : Proc α} {P1 : Proc β} {a : α} {b : β} {q01 q10 : Bytes}
    (h : Steps ⟨P0, P1, [], []⟩ (Done a b q01 q10)) : Ends P0 P1 a b q01 q10 := by
  obtain ⟨n, hn⟩ := h
  refine ⟨fun u ⟨m, hu⟩ => ?_, C52_no_infinite_schedule ⟨n, hn⟩ (stuck_done a b q01 q10)⟩
  obtain ⟨_, h1, h2⟩ := C52_schedule_independent hn (stuck_done a b q01 q10) hu
  exact ⟨⟨_, h1⟩, h2⟩

theorem PairLeft.ends {α β : Type} {P0 : Proc α} {P1 : Proc β} {a : α} {b : β} {q : Bytes} (h : PairLeft P0 P1 a b q) : Ends P0 P1 a b q [] := by
  apply Ends.ofSteps
  have := h _ _ .ret .ret
  rwa [Proc.bind_ret, Proc.bind_ret] at this

/-! ## Intake -/

theorem takes_freq (w : ℕ) : Takes (rdFreqShare w) (pkLength + (w + 7) / 8) fun e => e.1.length = pkLength ∧ e.2.length = w := by
  have : Takes (rdFreqShare w) (pkLength + (((w + 7) / 8 + 0) + 0)) fun e => e.1.length = pkLength ∧ e.2.length = w := by
    refine Takes.get fun pk hpk => ?_
    refine Takes.bind (P := fun l => l.length = w) (Takes.get fun bs _ => Takes.ret (by simp)) fun l hl => Takes.ret ⟨hpk, hl⟩
  simpa using this

theorem FreqStream.spec {w total : ℕ} {s : Bytes} {subs : List (Bytes × List Bool)} (h : FreqStream w total s subs) :
    subs.length = total ∧ Keyed subs ∧ ∀ e ∈ subs, e.2.length = w := by
  obtain ⟨rest, h⟩ := h
  obtain ⟨-, -, h1, h2⟩ := ((takes_freq w).rep total).of_run h
  exact ⟨h1, fun e he => (h2 e he).1, fun e he => (h2 e he).2⟩

/-- Every stream of sufficient length delivers submissions. -/
theorem freq_stream_covered (w total : ℕ) (s : Bytes) (h : total * (pkLength + (w + 7) / 8) ≤ s.length) :
    ∃ subs, FreqStream w total s subs := by
  obtain ⟨subs, e, -⟩ := (((takes_freq w).rep total) s).2 h
  exact ⟨subs, _, e⟩

/-- C34 for FREQ: the map holds for every key the first submission under it. -/
theorem C34_freq_intake {w total : ℕ} {s : Bytes} {subs : List (Bytes × List Bool)} (h : FreqStream w total s subs) :
    ∃ m, freqIntake w total s = some m ∧ m.keys.Nodup ∧ ∀ k, m.lookup k = firstOf anyRow subs k := by
  obtain ⟨rest, h⟩ := h
  refine ⟨admit anyRow subs [], ?_, C34_keys_once _ _, C34_first_admissible _ _⟩
  unfold freqIntake
  rw [h]; rfl

/-- A FREQ stream made of two submissions under the same key and one under another. -/
example : FreqStream 2 3 (encFreqShares [(List.replicate 32 1#8, [true, false]), (List.replicate 32 1#8, [true, true]),
    (List.replicate 32 2#8, [false, true])]) [(List.replicate 32 1#8, [true, false]), (List.replicate 32 1#8, [true, true]),
    (List.replicate 32 2#8, [false, true])] := ⟨[], by decide⟩

/-! ## The protocol -/

theorem Proc.ret_bind' {α β : Type} (a : α) (f : α → Proc β) : (Proc.ret a).bind f = f a := rfl

theorem firstOf_any_isSome (subs : List (Bytes × List Bool)) (k : Bytes) : (firstOf anyRow subs k).isSome = true ↔ k ∈ keysOf subs := by
  unfold firstOf keysOf
  rw [Option.isSome_map, List.find?_isSome, List.mem_toFinset, List.mem_map]
  constructor
  · rintro ⟨e, he, h⟩
    simp only [anyRow, Bool.and_true, beq_iff_eq] at h
    exact ⟨e, he, h⟩
  · rintro ⟨e, he, rfl⟩
    exact ⟨e, he, by simp [anyRow]⟩

theorem firstOf_length {w : ℕ} {subs : List (Bytes × List Bool)} (h : ∀ e ∈ subs, e.2.length = w) (k : Bytes) :
    ((firstOf anyRow subs k).getD (List.replicate w false)).length = w := by
  rcases hf : firstOf anyRow subs k with _ | v
  · simp
  · exact h _ (firstOf_mem hf)

theorem freqVec_length {w : ℕ} {subs0 subs1 : List (Bytes × List Bool)} (h0 : ∀ e ∈ subs0, e.2.length = w) (h1 : ∀ e ∈ subs1, e.2.length = w)
    (k : Bytes) : (freqVec w subs0 subs1 k).length = w := by
  unfold freqVec
  rw [List.length_zipWith, firstOf_length h0, firstOf_length h1, min_self]

theorem order_keys {subs : List (Bytes × List Bool)} {ord : Map (List Bool)} (hp : ord.Perm (admit anyRow subs [])) :
    ord.keys.toFinset = keysOf subs := by
  ext k
  rw [List.mem_toFinset, ← firstOf_any_isSome, ← C34_first_admissible, lookup_isSome_iff]
  exact (hp.map _).mem_iff

theorem numTrue_map (ks : List Bytes) (hn : ks.Nodup) (φ : Bytes → Bool) :
    numTrue (ks.map φ) = (ks.toFinset.filter fun k => φ k = true).card := by
  have e : numTrue (ks.map φ) = (ks.filter φ).length := by simp [numTrue, List.filter_map]
  rw [e, ← List.toFinset_card_of_nodup (hn.filter _)]
  congr 1
  ext k; simp

/-- What the two accumulators add up to. -/
theorem freq_answer {w : ℕ} {ks : List Bytes} (hn : ks.Nodup) (hlen : ks.length < intModulus) {v : Bytes → List Bool} {r0 r1 : List ℤ}
    (l0 : r0.length = ks.length * w) (l1 : r1.length = ks.length * w)
    (hc : ∀ i < ks.length, ∀ j < w, (at0 ((pieces w ks.length r0).getD i []) j : ZMod intModulus) + at0 ((pieces w ks.length r1).getD i []) j =
        if (v (ks.getD i [])).getD j false then 1 else 0) (φ : Bytes → Bool) :
    List.zipWith (fun x y => fmod (x + y) intModulus) (accumulate w (pieces w ks.length r0) (ks.map φ))
      (accumulate w (pieces w ks.length r1) (ks.map φ)) = histogram w (ks.toFinset.filter fun k => φ k = true) v := by
  obtain ⟨a1, a2, a3⟩ := accumulate_spec (ni := w) (pieces w ks.length r0) (ks.map φ) (by simp [pieces_length]) (pieces_mem w _ r0 l0)
  obtain ⟨b1, b2, b3⟩ := accumulate_spec (ni := w) (pieces w ks.length r1) (ks.map φ) (by simp [pieces_length]) (pieces_mem w _ r1 l1)
  apply List.ext_getElem
  · simp [a1, b1, histogram]
  · intro j h1 h2
    have hj : j < w := by simpa [histogram] using h2
    rw [List.getElem_zipWith]
    simp only [histogram, List.getElem_map, List.getElem_range]
    set C := ((ks.toFinset.filter fun k => φ k = true).filter fun k => (v k).getD j false = true).card with hC
    have hCl : C < intModulus := by
      refine lt_of_le_of_lt ?_ hlen
      rw [hC]
      refine (Finset.card_filter_le _ _).trans ((Finset.card_filter_le _ _).trans (List.toFinset_card_le _))
    have e1 := a3 j hj
    have e2 := b3 j hj
    have g1 : at0 (accumulate w (pieces w ks.length r0) (ks.map φ)) j = (accumulate w (pieces w ks.length r0) (ks.map φ))[j]'(by omega) := by
      rw [at0, List.getD_eq_getElem?_getD, List.getElem?_eq_getElem (by omega), Option.getD_some]
    have g2 : at0 (accumulate w (pieces w ks.length r1) (ks.map φ)) j = (accumulate w (pieces w ks.length r1) (ks.map φ))[j]'(by omega) := by
      rw [at0, List.getD_eq_getElem?_getD, List.getElem?_eq_getElem (by omega), Option.getD_some]
    rw [← g1, ← g2]
    refine (fmod_eq_nat hCl hCl ?_).2 rfl
    rw [Int.cast_add, e1, e2, pieces_length, pieces_length, ← Finset.sum_add_distrib]
    have hs : ∑ i ∈ Finset.range ks.length, ((if (ks.map φ).getD i false then (at0 ((pieces w ks.length r0).getD i []) j : ZMod intModulus) else 0) +
        (if (ks.map φ).getD i false then (at0 ((pieces w ks.length r1).getD i []) j : ZMod intModulus) else 0)) =
        (ks.mapIdx fun _ k => if φ k then (if (v k).getD j false then (1 : ZMod intModulus) else 0) else 0).sum := by
      refine sum_range_list ks _ _ fun i k hk => ?_
      have hi : i < ks.length := (List.getElem?_eq_some_iff.1 hk).1
      have hc' := hc i hi j hj
      rw [show ks.getD i [] = k by rw [List.getD_eq_getElem?_getD, hk, Option.getD_some]] at hc'
      rw [List.getD_eq_getElem?_getD, List.getElem?_map, hk]
      simp only [Option.map_some, Option.getD_some]
      by_cases hφ : φ k = true
      · simpa only [if_pos hφ] using hc'
      · simp only [if_neg hφ, add_zero]
    rw [hs]
    have hm : (ks.mapIdx fun _ k => if φ k then (if (v k).getD j false then (1 : ZMod intModulus) else 0) else 0) =
        ks.map fun k => if φ k then (if (v k).getD j false then (1 : ZMod intModulus) else 0) else 0 := by
      apply List.ext_getElem <;> simp
    rw [hm, sum_matched ks hn φ, ← Finset.sum_filter, Finset.sum_const, nsmul_one]

/-- FREQ after the intake. -/
theorem freq_run (c : StoreCfg) {g0 g1 : StoreRng} (hg : GoodRng intModulus g0) {w total0 : ℕ} (ht : total0 < 2 ^ 32)
    {subs0 subs1 : List (Bytes × List Bool)} (hk1 : Keyed subs1) (hw0 : ∀ e ∈ subs0, e.2.length = w) (hw1 : ∀ e ∈ subs1, e.2.length = w)
    (hcap : (keysOf subs1).card ≤ total0) (hsz : (keysOf subs1).card * w < 2 ^ 32) {st0 st1 : Store} (hst : StoresOk intModulus st0 st1)
    {ord : Map (List Bool)} (hp : ord.Perm (admit anyRow subs1 [])) :
    ∃ st0' st1', DaStep intModulus st0 st1 st0' st1' ((keysOf subs1).card * w) ∧
      (totalWeight w subs0 subs1 = total0 →
        PairLeft (freq0 c g0 w total0 (admit anyRow subs0 []) st0) (freq1 c g1 w ord st1)
          (verdict (keysOf subs1).card total0 (histogram w (keysOf subs1) (freqVec w subs0 subs1)), st0') (.noAns, st1')
          (encBools (List.replicate (keysOf subs1).card true))) ∧
      (totalWeight w subs0 subs1 ≠ total0 →
        Pair (freq0 c g0 w total0 (admit anyRow subs0 []) st0) (freq1 c g1 w ord st1)
          (verdict (oneHotKeys w subs0 subs1).card total0 (histogram w (oneHotKeys w subs0 subs1) (freqVec w subs0 subs1)), st0')
          (.noAns, st1')) := by
  set m := admit anyRow subs0 [] with hm
  set ks := ord.keys with hks
  have hn : ks.Nodup := order_nodup hp
  have hset : ks.toFinset = keysOf subs1 := order_keys hp
  have hcard : (keysOf subs1).card = ks.length := by rw [← hset, List.toFinset_card_of_nodup hn]
  rw [hcard] at hcap hsz ⊢
  have hol : ord.length = ks.length := by rw [hks]; simp [Map.keys]
  have hkk : ord.map (·.1) = ks := rfl
  set a : Bytes → List Bool := fun k => (firstOf anyRow subs0 k).getD (List.replicate w false) with ha
  set b : Bytes → List Bool := fun k => (firstOf anyRow subs1 k).getD (List.replicate w false) with hb
  set v := freqVec w subs0 subs1 with hv
  have hvab : ∀ k, v k = List.zipWith (fun a b => a ^^ b) (a k) (b k) := fun k => rfl
  have la : ∀ k, (a k).length = w := firstOf_length hw0
  have lb : ∀ k, (b k).length = w := firstOf_length hw1
  have lv : ∀ k, (v k).length = w := freqVec_length hw0 hw1
  have hA : ks.map (freqRow0 w m) = ks.map a := List.map_congr_left fun k _ => by rw [freqRow0, hm, C34_first_admissible]
  have hB : ord.map (·.2) = ks.map b := by
    rw [hks, Map.keys, List.map_map]
    refine List.map_congr_left fun e he => ?_
    simp only [Function.comp_apply, hb, order_lookup hp he, Option.getD_some]
  have hkyd := order_keyed hp hk1
  rw [← hks] at hkyd
  have hBp : (ord.map fun e => parityOf e.2) = (ks.map b).map parityOf := by rw [← hB, List.map_map]; rfl
  have hbk := bothKeys_eq anyRow subs0 subs1 ord hp
  rw [← hks] at hbk
  clear_value ks
  obtain ⟨r0, r1, st0', st1', hP, c0, c1, l0, l1, hc, hstep⟩ := freqConvert_pair (c := c) (g0 := g0) (g1 := g1) hg (w := w) (A := ks.map a) (B := ks.map b) (by simp)
    (by simp [la]) (by simp [lb]) (by simpa using hsz) hst
  rw [List.length_map] at l0 l1 hc hstep
  have hc' : ∀ i < ks.length, ∀ j < w, (at0 ((pieces w ks.length r0).getD i []) j : ZMod intModulus) + at0 ((pieces w ks.length r1).getD i []) j =
      if (v (ks.getD i [])).getD j false then 1 else 0 := by
    intro i hi j hj
    rw [hc i hi j hj, hvab]
    simp [List.getD_eq_getElem?_getD, List.getElem?_eq_getElem hi]
  set R0 := pieces w ks.length r0 with hR0
  set R1 := pieces w ks.length r1 with hR1
  have lR0 : R0.length = ks.length := pieces_length ..
  have lR1 : R1.length = ks.length := pieces_length ..
  have mR0 : ∀ q ∈ R0, q.length = w := pieces_mem w _ r0 l0
  have mR1 : ∀ q ∈ R1, q.length = w := pieces_mem w _ r1 l1
  have hp32 : (2 : ℕ) ^ 32 < intModulus := by decide
  have hksl : ks.length < intModulus := by omega
  -- sums of a row
  have hrow : ∀ i < ks.length, (at0 (R0.map modSum) i : ZMod intModulus) + at0 (R1.map modSum) i = weight (v (ks.getD i [])) := by
    intro i hi
    have e0 : at0 (R0.map modSum) i = modSum (R0.getD i []) := by
      simp [at0, List.getD_eq_getElem?_getD, List.getElem?_eq_getElem (show i < R0.length by omega)]
    have e1 : at0 (R1.map modSum) i = modSum (R1.getD i []) := by
      simp [at0, List.getD_eq_getElem?_getD, List.getElem?_eq_getElem (show i < R1.length by omega)]
    have w0 : (R0.getD i []).length = w := by
      rw [List.getD_eq_getElem?_getD, List.getElem?_eq_getElem (show i < R0.length by omega)]; exact mR0 _ (List.getElem_mem _)
    have w1 : (R1.getD i []).length = w := by
      rw [List.getD_eq_getElem?_getD, List.getElem?_eq_getElem (show i < R1.length by omega)]; exact mR1 _ (List.getElem_mem _)
    rw [e0, e1, modSum_cast, modSum_cast, sum_at0, sum_at0, w0, w1, ← Finset.sum_add_distrib, weight_sum, lv]
    exact Finset.sum_congr rfl fun j hj => hc' i hi j (Finset.mem_range.1 hj)
  have hWsum : (ks.map fun k => weight (v k)).sum = totalWeight w subs0 subs1 := by
    unfold totalWeight
    rw [← hset, List.sum_toFinset _ hn]
  have hWle : totalWeight w subs0 subs1 ≤ ks.length * w := by
    unfold totalWeight
    rw [← hset]
    refine (Finset.sum_le_card_nsmul _ _ w fun k _ => ?_).trans ?_
    · exact (weight_le _).trans (lv k).le
    · rw [smul_eq_mul]; exact Nat.mul_le_mul_right w (List.toFinset_card_le _)
  have htot : (modSum (R0.map modSum) : ZMod intModulus) + modSum (R1.map modSum) = (totalWeight w subs0 subs1 : ℕ) := by
    rw [modSum_cast, modSum_cast, sum_at0, sum_at0, List.length_map, List.length_map, lR0, lR1, ← Finset.sum_add_distrib,
      sum_range_list ks (fun _ k => ((weight (v k) : ℕ) : ZMod intModulus)) _ (fun i k hk => by
        have hi : i < ks.length := (List.getElem?_eq_some_iff.1 hk).1
        rw [hrow i hi, List.getD_eq_getElem?_getD, hk, Option.getD_some]), ← hWsum]
    have hmi : (ks.mapIdx fun _ k => ((weight (v k) : ℕ) : ZMod intModulus)) = ks.map fun k => ((weight (v k) : ℕ) : ZMod intModulus) := by
      apply List.ext_getElem <;> simp
    rw [hmi, Nat.cast_list_sum, List.map_map]; rfl
  have hpar : (parityOf ((ks.map a).map parityOf) ^^ parityOf ((ks.map b).map parityOf)) = decide (totalWeight w subs0 subs1 % 2 = 1) := by
    rw [parityOf_xor (by simp), ← hWsum]
    have : List.zipWith (fun a b => a ^^ b) ((ks.map a).map parityOf) ((ks.map b).map parityOf) = (ks.map v).map parityOf := by
      rw [List.map_map, List.map_map, List.map_map, List.zipWith_map, List.zipWith_self]
      refine List.map_congr_left fun k _ => ?_
      simp only [Function.comp_apply]
      rw [parityOf_xor ((la k).trans (lb k).symm), hvab]
    rw [this, parityOf_rows, List.map_map]; rfl
  have hbv : batchValid total0 (parityOf ((ks.map a).map parityOf)) (parityOf ((ks.map b).map parityOf)) (modSum (R0.map modSum)) (modSum (R1.map modSum)) =
      decide (totalWeight w subs0 subs1 = total0) := batchValid_eq (by omega) (by omega) hpar htot
  have hiv : freqValid (matched m ks) ((ks.map a).map parityOf) ((ks.map b).map parityOf) (R0.map modSum) (R1.map modSum) =
      ks.map fun k => (List.lookup k m).isSome && decide (weight (v k) = 1) := by
    rw [freqValid_eq (n := ks.length) (by simp [matched]) (by simp) (by simp) (by simp [lR0]) (by simp [lR1])]
    apply List.ext_getElem
    · simp
    · intro i h1 h2
      have hi : i < ks.length := by simpa using h1
      rw [List.getElem_map, List.getElem_range, List.getElem_map]
      have := hrow i hi
      rw [List.getD_eq_getElem?_getD, List.getElem?_eq_getElem hi, Option.getD_some] at this
      rw [freqRowValid_eq (W := weight (v ks[i])) (by
        have h1 := weight_le (v ks[i])
        rw [lv] at h1
        have : w ≤ ks.length * w := Nat.le_mul_of_pos_left w (by omega)
        omega) ?_ this]
      · simp [matched, List.getD_eq_getElem?_getD, List.getElem?_eq_getElem hi]
      · simp only [List.getD_eq_getElem?_getD, List.getElem?_map, List.getElem?_eq_getElem hi, Option.map_some, Option.getD_some]
        rw [parityOf_xor ((la _).trans (lb _).symm), ← hvab, parityOf_eq]
  -- the messages
  have hfits : ∀ (R : List (List ℤ)), ∀ x ∈ R.map modSum, Fits x := by
    intro R x hx
    obtain ⟨q, -, rfl⟩ := List.mem_map.1 hx
    exact fits_canon (modSum_canon q)
  have hacc : ∀ (R : List (List ℤ)) (V : List Bool), R.length = V.length → (∀ q ∈ R, q.length = w) →
      (accumulate w R V).length = w ∧ ∀ x ∈ accumulate w R V, Fits x := by
    intro R V h1 h2
    obtain ⟨q1, q2, -⟩ := accumulate_spec (ni := w) R V h1 h2
    exact ⟨q1, fun x hx => fits_canon (q2 x hx)⟩
  have hL := listenInto_pair total0 ks hkyd (by omega) hcap
  refine ⟨st0', st1', hstep, fun hW => ?_, fun hW => ?_⟩
  · rw [decide_eq_true hW] at hbv
    have hall : ks.map (fun _ => true) = List.replicate ks.length true := by simp
    have hans := freq_answer hn hksl l0 l1 hc' (fun _ => true)
    rw [hall] at hans
    have hfs : (ks.toFinset.filter fun _ => true = true) = keysOf subs1 := by rw [← hset]; simp
    rw [hfs] at hans
    unfold freq0 freq1
    rw [← Proc.bind_assoc, hkk]
    refine hL.bindLeft ?_
    rw [hA, hB]
    refine hP.bindLeft ?_
    simp only [hBp, hol]
    refine (Pair.send10 (reads_bool _)).bindLeft ?_
    rw [encFmpz_of_fits (fits_canon (modSum_canon _))]
    refine (Pair.send10 (reads_fmpz (fits_canon (modSum_canon _)))).bindLeft ?_
    rw [← hR0, ← hR1, hbv]
    refine (Pair.send01 (reads_bool true)).bindLeft ?_
    simp only [if_true]
    obtain ⟨q1, q2⟩ := hacc R1 (List.replicate ks.length true) (by simp [lR1]) mR1
    have hr := reads_fmpzs _ q2
    rw [q1] at hr
    rw [Proc.ret_bind', Proc.ret_bind']
    rw [encFmpzs_of_fits _ q2]
    have hnt : numTrue (List.replicate ks.length true) = ks.length := by simp [numTrue]
    intro γ δ k0 k1
    simp only [Proc.bind, Proc.put, Proc.putOpt, hnt]
    refine .head (.send0 ..) (.head (.send1 ..) ?_)
    rw [Proc.bind_assoc]
    refine (steps_read0 (rdFmpzs w) _ [] _ (by simpa using hr.run_eq) _ _ _).trans ?_
    rw [hans, finish_eq, List.nil_append]
    exact .refl _
  · rw [decide_eq_false hW] at hbv
    have hans := freq_answer hn hksl l0 l1 hc' (fun k => (List.lookup k m).isSome && decide (weight (v k) = 1))
    have hfs : (ks.toFinset.filter fun k => ((List.lookup k m).isSome && decide (weight (v k) = 1)) = true) = oneHotKeys w subs0 subs1 := by
      unfold oneHotKeys
      rw [← hbk, Finset.filter_filter]
      refine Finset.filter_congr fun k _ => ?_
      simp [hv, hm]
    have hnt := numTrue_map ks hn (fun k => (List.lookup k m).isSome && decide (weight (v k) = 1))
    rw [hfs] at hans hnt
    unfold freq0 freq1
    rw [← Proc.bind_assoc, hkk]
    refine hL.bind ?_
    rw [hA, hB]
    refine hP.bind ?_
    simp only [hBp, hol]
    refine (Pair.send10 (reads_bool _)).bind ?_
    rw [encFmpz_of_fits (fits_canon (modSum_canon _))]
    refine (Pair.send10 (reads_fmpz (fits_canon (modSum_canon _)))).bind ?_
    rw [← hR0, ← hR1, hbv]
    refine (Pair.send01 (reads_bool false)).bind ?_
    simp only [Bool.false_eq_true, if_false]
    rw [encFmpzs_of_fits _ (hfits R1), Proc.bind_assoc]
    have rp := reads_bools ((ks.map b).map parityOf)
    rw [List.length_map, List.length_map] at rp
    have rs := reads_fmpzs _ (hfits R1)
    rw [List.length_map, lR1] at rs
    rw [Proc.bind_assoc]
    refine (Pair.send10 rp).bind ?_
    rw [Proc.bind_assoc, Proc.bind_assoc]
    refine (Pair.send10 rs).bind ?_
    rw [hiv]
    set V := ks.map fun k => (List.lookup k m).isSome && decide (weight (v k) = 1) with hV
    have rv := reads_bools V
    have lV : V.length = ks.length := by simp [hV]
    rw [lV] at rv
    show Pair ((Proc.put (encBools V)).bind _) _ _ _
    refine (Pair.send01 rv).bind ?_
    obtain ⟨q1, q2⟩ := hacc R1 V (by rw [lR1, lV]) mR1
    have hr := reads_fmpzs _ q2
    rw [q1] at hr
    rw [encFmpzs_of_fits _ q2]
    refine (Pair.send10 hr).bind ?_
    rw [hans, hnt, finish_eq]
    exact Pair.ret _ _

/-! ## The operation -/

theorem freqOp_run (c : StoreCfg) {g0 g1 : StoreRng} (hg : GoodRng intModulus g0) {nbits total0 total1 : ℕ} (hb : nbits ≤ 30)
    (ht : total0 < 2 ^ 32) {stream0 stream1 : Bytes} {subs0 subs1 : List (Bytes × List Bool)} (hs0 : FreqStream (2 ^ nbits) total0 stream0 subs0)
    (hs1 : FreqStream (2 ^ nbits) total1 stream1 subs1) (hcap : (keysOf subs1).card ≤ total0)
    (hsz : (keysOf subs1).card * 2 ^ nbits < 2 ^ 32) {st0 st1 : Store} (hst : StoresOk intModulus st0 st1)
    (ord : Map (List Bool) → Map (List Bool)) (ho : IsOrder ord) :
    ∃ st0' st1', DaStep intModulus st0 st1 st0' st1' ((keysOf subs1).card * 2 ^ nbits) ∧
      (totalWeight (2 ^ nbits) subs0 subs1 = total0 →
        PairLeft (freqOp0 c g0 nbits total0 stream0 st0) (freqOp1 c g1 nbits total1 stream1 ord st1)
          (verdict (keysOf subs1).card total0 (histogram (2 ^ nbits) (keysOf subs1) (freqVec (2 ^ nbits) subs0 subs1)), st0') (.noAns, st1')
          (encBools (List.replicate (keysOf subs1).card true))) ∧
      (totalWeight (2 ^ nbits) subs0 subs1 ≠ total0 →
        Pair (freqOp0 c g0 nbits total0 stream0 st0) (freqOp1 c g1 nbits total1 stream1 ord st1)
          (verdict (oneHotKeys (2 ^ nbits) subs0 subs1).card total0
            (histogram (2 ^ nbits) (oneHotKeys (2 ^ nbits) subs0 subs1) (freqVec (2 ^ nbits) subs0 subs1)), st0') (.noAns, st1')) := by
  obtain ⟨-, -, w0⟩ := hs0.spec
  obtain ⟨-, k1, w1⟩ := hs1.spec
  obtain ⟨st0', st1', h1, h2, h3⟩ := freq_run c (g1 := g1) hg ht k1 w0 w1 hcap hsz hst (ho _)
  have e0 : freqOp0 c g0 nbits total0 stream0 st0 = freq0 c g0 (2 ^ nbits) total0 (admit anyRow subs0 []) st0 := by
    obtain ⟨r, e⟩ := hs0
    unfold freqOp0 freqWidth freqIntake
    rw [if_pos hb]
    show Proc.bind (Proc.ofOption (Option.map _ (((rdFreqShare (2 ^ nbits)).rep total0).run stream0))) _ = _
    rw [e]; rfl
  have e1 : freqOp1 c g1 nbits total1 stream1 ord st1 = freq1 c g1 (2 ^ nbits) (ord (admit anyRow subs1 [])) st1 := by
    obtain ⟨r, e⟩ := hs1
    unfold freqOp1 freqWidth freqIntake
    rw [if_pos hb]
    show Proc.bind (Proc.ofOption (Option.map _ (((rdFreqShare (2 ^ nbits)).rep total1).run stream1))) _ = _
    rw [e]; rfl
  rw [e0, e1]
  exact ⟨st0', st1', h1, h2, h3⟩

/-- C44 and C46: the operation in full. If the weights of the vectors of all keys of server 1 add up to server 0's announced count, all
of these keys are counted and one byte per eight rows stays unread on the way to server 1; otherwise exactly the keys known to both
servers with a vector of weight one are counted and nothing is left. -/
theorem C44_freq_op (c : StoreCfg) {g0 g1 : StoreRng} (hg : GoodRng intModulus g0) {nbits total0 total1 : ℕ} (hb : nbits ≤ 30)
    (ht : total0 < 2 ^ 32) {stream0 stream1 : Bytes} {subs0 subs1 : List (Bytes × List Bool)} (hs0 : FreqStream (2 ^ nbits) total0 stream0 subs0)
    (hs1 : FreqStream (2 ^ nbits) total1 stream1 subs1) (hcap : (keysOf subs1).card ≤ total0)
    (hsz : (keysOf subs1).card * 2 ^ nbits < 2 ^ 32) {st0 st1 : Store} (hst : StoresOk intModulus st0 st1)
    (ord : Map (List Bool) → Map (List Bool)) (ho : IsOrder ord) :
    ∃ st0' st1', DaStep intModulus st0 st1 st0' st1' ((keysOf subs1).card * 2 ^ nbits) ∧
      (totalWeight (2 ^ nbits) subs0 subs1 = total0 →
        Ends (freqOp0 c g0 nbits total0 stream0 st0) (freqOp1 c g1 nbits total1 stream1 ord st1)
          (verdict (keysOf subs1).card total0 (histogram (2 ^ nbits) (keysOf subs1) (freqVec (2 ^ nbits) subs0 subs1)), st0') (.noAns, st1')
          (encBools (List.replicate (keysOf subs1).card true)) []) ∧
      (totalWeight (2 ^ nbits) subs0 subs1 ≠ total0 →
        Always (freqOp0 c g0 nbits total0 stream0 st0) (freqOp1 c g1 nbits total1 stream1 ord st1)
          (verdict (oneHotKeys (2 ^ nbits) subs0 subs1).card total0
            (histogram (2 ^ nbits) (oneHotKeys (2 ^ nbits) subs0 subs1) (freqVec (2 ^ nbits) subs0 subs1)), st0') (.noAns, st1')) := by
  obtain ⟨st0', st1', h1, h2, h3⟩ := freqOp_run c (g1 := g1) hg hb ht hs0 hs1 hcap hsz hst ord ho
  exact ⟨st0', st1', h1, fun h => (h2 h).ends, fun h => (h3 h).always⟩

/-- From 31 bits on both servers run into undefined behaviour before anything is exchanged. -/
theorem C44_width (c : StoreCfg) (g0 g1 : StoreRng) {nbits : ℕ} (hb : 31 ≤ nbits) (total0 total1 : ℕ) (stream0 stream1 : Bytes) (st0 st1 : Store)
    (ord : Map (List Bool) → Map (List Bool)) :
    freqOp0 c g0 nbits total0 stream0 st0 = .fault ∧ freqOp1 c g1 nbits total1 stream1 ord st1 = .fault := by
  unfold freqOp0 freqOp1 freqWidth
  rw [if_neg (by omega)]
  exact ⟨rfl, rfl⟩

/-! ## Honest clients -/

/-- What one honest client holds. -/
structure FreqClient where
  pk : Bytes
  raw : U64
  arr : List Bool

/-- Its value. -/
def FreqClient.value (nbits : ℕ) (c : FreqClient) : ℕ := c.raw.toNat % 2 ^ nbits

/-- Both servers receive the shares of the clients, each in some order. -/
structure HonestFreq (nbits : ℕ) (cs : List FreqClient) (subs0 subs1 : List (Bytes × List Bool)) : Prop where
  distinct : (cs.map (·.pk)).Nodup
  sized : ∀ c ∈ cs, c.pk.length = pkLength ∧ c.arr.length = 2 ^ nbits
  subs0 : subs0.Perm (cs.map fun c => (c.pk, (clientFreq nbits c.raw c.arr).1))
  subs1 : subs1.Perm (cs.map fun c => (c.pk, (clientFreq nbits c.raw c.arr).2))

theorem freq_stream {w : ℕ} {subs : List (Bytes × List Bool)} (h : ∀ e ∈ subs, e.1.length = pkLength ∧ e.2.length = w) (rest : Bytes) :
    FreqStream w subs.length (encFreqShares subs ++ rest) subs := by
  refine ⟨rest, ?_⟩
  have hrd : Reads ((rdFreqShare w).rep subs.length) (encFreqShares subs) subs := by
    induction subs with
    | nil => exact Reads.ret _
    | cons e subs ih =>
      rw [List.length_cons, Rd.rep, encFreqShares, List.map_cons, List.flatten_cons]
      obtain ⟨a, b⟩ := h e (List.mem_cons_self ..)
      have w1 := reads_bools e.2
      rw [b] at w1
      have : Reads (rdFreqShare w) (e.1 ++ encBools e.2) e := by
        unfold rdFreqShare
        exact Reads.bind' (r := .get pkLength .ret) (f := fun pk => (rdBools w).bind fun b => .ret (pk, b)) (Reads.getRet (k := id) a)
          (Reads.bindRet (f := fun b => (e.1, b)) w1) rfl
      exact this.bind (Reads.bindRet (f := fun as => e :: as) (ih fun e hm => h e (List.mem_cons_of_mem _ hm)))
  exact hrd rest

/-- The two shares of an honest client differ exactly at its value. -/
theorem clientFreq_vec {nbits : ℕ} (hb : nbits ≤ 30) (raw : U64) {arr : List Bool} (hl : arr.length = 2 ^ nbits) :
    (clientFreq nbits raw arr).1.length = 2 ^ nbits ∧ (clientFreq nbits raw arr).2.length = 2 ^ nbits ∧
    List.zipWith (fun a b => a ^^ b) (clientFreq nbits raw arr).1 (clientFreq nbits raw arr).2 =
      (List.range (2 ^ nbits)).map fun j => decide (j = raw.toNat % 2 ^ nbits) := by
  have hv : (raw % (1#64 <<< nbits)).toNat = raw.toNat % 2 ^ nbits := by
    rw [BitVec.toNat_umod, BitVec.toNat_shiftLeft]
    have : (2 : ℕ) ^ nbits ≤ 2 ^ 30 := Nat.pow_le_pow_right (by norm_num) hb
    simp only [BitVec.toNat_ofNat, Nat.reducePow, Nat.reduceMod, Nat.shiftLeft_eq, one_mul]
    rw [Nat.mod_eq_of_lt (a := 2 ^ nbits) (by omega)]
  unfold clientFreq
  rw [hv]
  refine ⟨hl, by simpa using hl, ?_⟩
  have hlt : raw.toNat % 2 ^ nbits < arr.length := by rw [hl]; exact Nat.mod_lt _ (by positivity)
  apply List.ext_getElem
  · simp [hl]
  · intro j h1 h2
    simp only [List.getElem_zipWith, List.getElem_map, List.getElem_range, List.getElem_set]
    by_cases e : j = raw.toNat % 2 ^ nbits
    · subst e
      simp [List.getD_eq_getElem?_getD, List.getElem?_eq_getElem hlt]
    · rw [if_neg (by omega)]
      simp [e]

theorem weight_unit {w v : ℕ} (hv : v < w) : weight ((List.range w).map fun j => decide (j = v)) = 1 := by
  unfold weight
  rw [List.count_eq_length_filter, List.filter_map, List.length_map]
  have : (List.range w).filter ((fun b => b == true) ∘ fun j => decide (j = v)) = (List.range w).filter fun j => j == v := by
    congr 1; ext j; simp [beq_eq_decide]
  rw [this, ← List.count_eq_length_filter]
  exact List.count_eq_one_of_mem List.nodup_range (List.mem_range.2 hv)

theorem keysOf_perm {γ : Type} {subs : List (Bytes × List Bool)} {cs : List γ} {pk : γ → Bytes} {f : γ → List Bool}
    (h : subs.Perm (cs.map fun c => (pk c, f c))) : keysOf subs = (cs.map pk).toFinset := by
  unfold keysOf
  ext k
  rw [List.mem_toFinset, List.mem_toFinset, (h.map _).mem_iff, List.map_map]; rfl

/-- C44 end to end: honest clients with distinct keys, in all orders of arrival, iteration and scheduling, are all counted in the bucket
of their value. As the batch check holds, the unread bytes of C47 stay behind. -/
theorem C44_honest (c : StoreCfg) {g0 g1 : StoreRng} (hg : GoodRng intModulus g0) {nbits : ℕ} (hb : nbits ≤ 30) {cs : List FreqClient}
    (hsz : cs.length * 2 ^ nbits < 2 ^ 32) {subs0 subs1 : List (Bytes × List Bool)} (hh : HonestFreq nbits cs subs0 subs1)
    (rest0 rest1 : Bytes) {st0 st1 : Store} (hst : StoresOk intModulus st0 st1) (ord : Map (List Bool) → Map (List Bool)) (ho : IsOrder ord) :
    ∃ st0' st1', DaStep intModulus st0 st1 st0' st1' (cs.length * 2 ^ nbits) ∧
      Ends (freqOp0 c g0 nbits cs.length (encFreqShares subs0 ++ rest0) st0) (freqOp1 c g1 nbits cs.length (encFreqShares subs1 ++ rest1) ord st1)
        (.ans ((List.range (2 ^ nbits)).map fun j => ((cs.map (·.value nbits)).count j : ℤ)), st0') (.noAns, st1')
        (encBools (List.replicate cs.length true)) [] := by
  have hlen : cs.length < 2 ^ 32 := lt_of_le_of_lt (Nat.le_mul_of_pos_right _ (by positivity)) hsz
  have hv := fun cl hc => clientFreq_vec hb (FreqClient.raw cl) (hh.sized cl hc).2
  have l0 : subs0.length = cs.length := by rw [hh.subs0.length_eq, List.length_map]
  have l1 : subs1.length = cs.length := by rw [hh.subs1.length_eq, List.length_map]
  have s0 : FreqStream (2 ^ nbits) cs.length (encFreqShares subs0 ++ rest0) subs0 := by
    rw [← l0]
    refine freq_stream (fun e he => ?_) rest0
    obtain ⟨cl, hc, rfl⟩ := List.mem_map.1 (hh.subs0.mem_iff.1 he)
    exact ⟨(hh.sized cl hc).1, (hv cl hc).1⟩
  have s1 : FreqStream (2 ^ nbits) cs.length (encFreqShares subs1 ++ rest1) subs1 := by
    rw [← l1]
    refine freq_stream (fun e he => ?_) rest1
    obtain ⟨cl, hc, rfl⟩ := List.mem_map.1 (hh.subs1.mem_iff.1 he)
    exact ⟨(hh.sized cl hc).1, (hv cl hc).2.1⟩
  have hks : keysOf subs1 = (cs.map (·.pk)).toFinset := keysOf_perm hh.subs1
  have hcard : (keysOf subs1).card = cs.length := by rw [hks, List.toFinset_card_of_nodup hh.distinct, List.length_map]
  obtain ⟨hfo, -⟩ := bothKeys_honest_ok (ok := anyRow) cs (·.pk) (fun cl => (clientFreq nbits cl.raw cl.arr).1)
    (fun cl => (clientFreq nbits cl.raw cl.arr).2) hh.distinct (fun _ _ => rfl) (fun _ _ => rfl) subs0 subs1 hh.subs0 hh.subs1
  have hvec : ∀ cl ∈ cs, freqVec (2 ^ nbits) subs0 subs1 cl.pk = (List.range (2 ^ nbits)).map fun j => decide (j = cl.value nbits) := by
    intro cl hc
    unfold freqVec
    rw [(hfo cl hc).1, (hfo cl hc).2]
    exact (hv cl hc).2.2
  have hval : ∀ cl : FreqClient, cl.value nbits < 2 ^ nbits := fun cl => Nat.mod_lt _ (by positivity)
  have hW : totalWeight (2 ^ nbits) subs0 subs1 = cs.length := by
    unfold totalWeight
    rw [Finset.sum_congr rfl (g := fun _ => 1) (fun k hk => ?_), Finset.sum_const, hcard, smul_eq_mul, mul_one]
    rw [hks, List.mem_toFinset] at hk
    obtain ⟨cl, hc, rfl⟩ := List.mem_map.1 hk
    rw [hvec cl hc, weight_unit (hval cl)]
  obtain ⟨st0', st1', h1, h2, -⟩ := C44_freq_op c (g1 := g1) hg hb hlen s0 s1 hcard.le (by rw [hcard]; exact hsz) hst ord ho
  refine ⟨st0', st1', by rwa [hcard] at h1, ?_⟩
  have h3 := h2 hW
  rw [hcard, verdict_full] at h3
  have hhist : histogram (2 ^ nbits) (keysOf subs1) (freqVec (2 ^ nbits) subs0 subs1) =
      (List.range (2 ^ nbits)).map fun j => ((cs.map (·.value nbits)).count j : ℤ) := by
    unfold histogram
    refine List.map_congr_left fun j hj => ?_
    congr 1
    rw [List.count_eq_length_filter, List.filter_map, List.length_map]
    have hn' : ((cs.filter ((fun x => x == j) ∘ fun cl => cl.value nbits)).map (·.pk)).Nodup :=
      hh.distinct.sublist ((List.filter_sublist).map _)
    rw [← List.length_map (f := (·.pk)), ← List.toFinset_card_of_nodup hn', hks]
    congr 1
    ext k
    simp only [Finset.mem_filter, List.mem_toFinset, List.mem_map, List.mem_filter, Function.comp_apply, beq_iff_eq]
    have hjw := List.mem_range.1 hj
    constructor
    · rintro ⟨⟨cl, hc, rfl⟩, h⟩
      rw [hvec cl hc] at h
      refine ⟨cl, ⟨hc, ?_⟩, rfl⟩
      simp [List.getD_eq_getElem?_getD, hjw] at h
      exact h.symm
    · rintro ⟨cl, ⟨hc, rfl⟩, rfl⟩
      refine ⟨⟨cl, hc, rfl⟩, ?_⟩
      rw [hvec cl hc]
      simp [List.getD_eq_getElem?_getD, hjw]
  rwa [hhist] at h3

/-- Two honest clients with one-bit values. -/
example : HonestFreq 1 [⟨List.replicate 32 1#8, 5#64, [true, false]⟩, ⟨List.replicate 32 2#8, 4#64, [true, true]⟩]
    [(List.replicate 32 2#8, [true, true]), (List.replicate 32 1#8, [true, false])]
    [(List.replicate 32 1#8, [true, true]), (List.replicate 32 2#8, [false, true])] :=
  ⟨by decide, by decide, by decide, by decide⟩

/-! ## C45, C46: what the batch check lets through -/

theorem freqStream_of {w : ℕ} {s : Bytes} {subs : List (Bytes × List Bool)} (hs : s = encFreqShares subs)
    (h : ∀ e ∈ subs, e.1.length = pkLength ∧ e.2.length = w) : FreqStream w subs.length s subs := by
  have := freq_stream h []
  rwa [List.append_nil, ← hs] at this

/-- A first and a second key for the witnesses. -/
def keyA : Bytes := List.replicate 32 0x61#8
def keyB : Bytes := List.replicate 32 0x62#8

/-- C45 is false: two submissions of weights 2 and 0 are both counted, although neither vector is one-hot. -/
theorem C45_false_two_hot (c : StoreCfg) {g0 g1 : StoreRng} (hg : GoodRng intModulus g0) {st0 st1 : Store} (hst : StoresOk intModulus st0 st1)
    (ord : Map (List Bool) → Map (List Bool)) (ho : IsOrder ord) :
    (∃ st0' st1', Ends (freqOp0 c g0 1 2 (encFreqShares [(keyA, [true, true]), (keyB, [false, false])]) st0)
        (freqOp1 c g1 1 2 (encFreqShares [(keyA, [false, false]), (keyB, [false, false])]) ord st1)
        (.ans [1, 1], st0') (.noAns, st1') (encBools [true, true]) []) ∧
      oneHotKeys 2 [(keyA, [true, true]), (keyB, [false, false])] [(keyA, [false, false]), (keyB, [false, false])] = ∅ := by
  refine ⟨?_, by decide⟩
  obtain ⟨st0', st1', -, h, -⟩ := C44_freq_op c (g1 := g1) hg (nbits := 1) (total0 := 2) (total1 := 2) (by norm_num) (by norm_num)
    (freqStream_of (subs := [(keyA, [true, true]), (keyB, [false, false])]) rfl (by decide))
    (freqStream_of (subs := [(keyA, [false, false]), (keyB, [false, false])]) rfl (by decide)) (by decide) (by decide) hst ord ho
  exact ⟨st0', st1', h (by decide)⟩

/-- C46 is false: a submission received by server 1 only is counted if the total weight happens to match server 0's count; here the two
servers received one submission each, under different keys. -/
theorem C46_false_unmatched (c : StoreCfg) {g0 g1 : StoreRng} (hg : GoodRng intModulus g0) {st0 st1 : Store} (hst : StoresOk intModulus st0 st1)
    (ord : Map (List Bool) → Map (List Bool)) (ho : IsOrder ord) :
    (∃ st0' st1', Ends (freqOp0 c g0 1 1 (encFreqShares [(keyA, [false, true])]) st0)
        (freqOp1 c g1 1 1 (encFreqShares [(keyB, [true, false])]) ord st1)
        (.ans [1, 0], st0') (.noAns, st1') (encBools [true]) []) ∧
      bothKeys anyRow [(keyA, [false, true])] [(keyB, [true, false])] = ∅ := by
  refine ⟨?_, by decide⟩
  obtain ⟨st0', st1', -, h, -⟩ := C44_freq_op c (g1 := g1) hg (nbits := 1) (total0 := 1) (total1 := 1) (by norm_num) (by norm_num)
    (freqStream_of (subs := [(keyA, [false, true])]) rfl (by decide))
    (freqStream_of (subs := [(keyB, [true, false])]) rfl (by decide)) (by decide) (by decide) hst ord ho
  exact ⟨st0', st1', h (by decide)⟩

/-- The buckets of a histogram add up to the weights of the vectors. -/
theorem histogram_sum {w : ℕ} (G : Finset Bytes) {v : Bytes → List Bool} (hv : ∀ k ∈ G, (v k).length = w) :
    (histogram w G v).sum = ((∑ k ∈ G, weight (v k) : ℕ) : ℤ) := by
  unfold histogram
  rw [← List.sum_toFinset _ List.nodup_range, List.toFinset_range]
  rw [Nat.cast_sum]
  have : ∀ k ∈ G, ((weight (v k) : ℕ) : ℤ) = ∑ j ∈ Finset.range w, if (v k).getD j false = true then 1 else 0 := by
    intro k hk
    rw [← hv k hk]
    exact_mod_cast weight_sum (R := ℤ) (v k)
  rw [Finset.sum_congr rfl this, Finset.sum_comm]
  refine Finset.sum_congr rfl fun j _ => ?_
  rw [Finset.card_filter]
  push_cast
  rfl

/-- What holds of C45 and C46, and C48 for FREQ. Full statement of C45: every counted vector has weight one; of C46: every counted key
was received by both servers. Both fail under the batch check. What holds: the answer is the histogram of a set `G` of keys of server 1
and is reported invalid iff fewer than half of server 0's announced count are in `G`; either (individual check) `G` is the set of keys
known to both servers with a one-hot vector, or (batch check) the total weight in `G` is the announced count. In both cases the buckets
add up to at most the announced count. -/
theorem C45_weight_partial (c : StoreCfg) {g0 g1 : StoreRng} (hg : GoodRng intModulus g0) {nbits total0 total1 : ℕ} (hb : nbits ≤ 30)
    (ht : total0 < 2 ^ 32) {stream0 stream1 : Bytes} {subs0 subs1 : List (Bytes × List Bool)} (hs0 : FreqStream (2 ^ nbits) total0 stream0 subs0)
    (hs1 : FreqStream (2 ^ nbits) total1 stream1 subs1) (hcap : (keysOf subs1).card ≤ total0)
    (hsz : (keysOf subs1).card * 2 ^ nbits < 2 ^ 32) {st0 st1 : Store} (hst : StoresOk intModulus st0 st1)
    (ord : Map (List Bool) → Map (List Bool)) (ho : IsOrder ord) :
    ∃ G st0' st1' q, Ends (freqOp0 c g0 nbits total0 stream0 st0) (freqOp1 c g1 nbits total1 stream1 ord st1)
        (verdict G.card total0 (histogram (2 ^ nbits) G (freqVec (2 ^ nbits) subs0 subs1)), st0') (.noAns, st1') q [] ∧
      ((∀ k, k ∈ G ↔ k ∈ keysOf subs0 ∧ k ∈ keysOf subs1 ∧ weight (freqVec (2 ^ nbits) subs0 subs1 k) = 1) ∨
        (G = keysOf subs1 ∧ ∑ k ∈ G, weight (freqVec (2 ^ nbits) subs0 subs1 k) = total0)) ∧
      (histogram (2 ^ nbits) G (freqVec (2 ^ nbits) subs0 subs1)).sum ≤ total0 := by
  obtain ⟨st0', st1', -, h2, h3⟩ := C44_freq_op c (g1 := g1) hg hb ht hs0 hs1 hcap hsz hst ord ho
  have lv := freqVec_length hs0.spec.2.2 hs1.spec.2.2
  by_cases hW : totalWeight (2 ^ nbits) subs0 subs1 = total0
  · refine ⟨keysOf subs1, st0', st1', _, h2 hW, .inr ⟨rfl, hW⟩, ?_⟩
    rw [histogram_sum _ fun k _ => lv k]
    exact_mod_cast hW.le
  · have hmem : ∀ k, k ∈ oneHotKeys (2 ^ nbits) subs0 subs1 ↔
        k ∈ keysOf subs0 ∧ k ∈ keysOf subs1 ∧ weight (freqVec (2 ^ nbits) subs0 subs1 k) = 1 := by
      intro k
      unfold oneHotKeys
      have := bothKeys_eq anyRow subs0 subs1 (admit anyRow subs1 []) (List.Perm.refl _)
      rw [← this, Finset.mem_filter, Finset.mem_filter, order_keys (List.Perm.refl _), C34_first_admissible, firstOf_any_isSome]
      tauto
    refine ⟨oneHotKeys (2 ^ nbits) subs0 subs1, st0', st1', [], h3 hW, .inl hmem, ?_⟩
    rw [histogram_sum _ fun k _ => lv k, Finset.sum_congr rfl (g := fun _ => 1) fun k hk => ((hmem k).1 hk).2.2]
    simp only [Finset.sum_const, smul_eq_mul, mul_one]
    have : oneHotKeys (2 ^ nbits) subs0 subs1 ⊆ keysOf subs1 := fun k hk => ((hmem k).1 hk).2.1
    exact_mod_cast (Finset.card_le_card this).trans hcap

/-- What holds of C46. Full statement: every counted key was received by both servers. Missing: the batches whose total weight equals the
announced count (`C46_false_unmatched`). For all others the answer is unchanged if the submissions of server 1 under keys that server 0
does not know are dropped. -/
theorem C46_both_partial (c : StoreCfg) {g0 g1 : StoreRng} (hg : GoodRng intModulus g0) {nbits total0 total1 : ℕ} (hb : nbits ≤ 30)
    (ht : total0 < 2 ^ 32) {stream0 stream1 : Bytes} {subs0 subs1 : List (Bytes × List Bool)} (hs0 : FreqStream (2 ^ nbits) total0 stream0 subs0)
    (hs1 : FreqStream (2 ^ nbits) total1 stream1 subs1) (hcap : (keysOf subs1).card ≤ total0)
    (hsz : (keysOf subs1).card * 2 ^ nbits < 2 ^ 32) (hW : totalWeight (2 ^ nbits) subs0 subs1 ≠ total0)
    {st0 st1 : Store} (hst : StoresOk intModulus st0 st1) (ord : Map (List Bool) → Map (List Bool)) (ho : IsOrder ord) :
    ∃ G ⊆ keysOf subs0 ∩ keysOf subs1, ∃ st0' st1', Always (freqOp0 c g0 nbits total0 stream0 st0) (freqOp1 c g1 nbits total1 stream1 ord st1)
        (verdict G.card total0 (histogram (2 ^ nbits) G (freqVec (2 ^ nbits) subs0 subs1)), st0') (.noAns, st1') := by
  obtain ⟨st0', st1', -, -, h3⟩ := C44_freq_op c (g1 := g1) hg hb ht hs0 hs1 hcap hsz hst ord ho
  refine ⟨oneHotKeys (2 ^ nbits) subs0 subs1, fun k hk => ?_, st0', st1', h3 hW⟩
  have := bothKeys_eq anyRow subs0 subs1 (admit anyRow subs1 []) (List.Perm.refl _)
  rw [oneHotKeys, Finset.mem_filter, ← this, Finset.mem_filter, order_keys (List.Perm.refl _), C34_first_admissible, firstOf_any_isSome] at hk
  rw [Finset.mem_inter]
  exact ⟨hk.1.2, hk.1.1⟩

/-- C48 for FREQ: an invalid batch is reported iff twice the number of counted keys is below the announced number. -/
theorem C48_freq (c : StoreCfg) {g0 g1 : StoreRng} (hg : GoodRng intModulus g0) {nbits total0 total1 : ℕ} (hb : nbits ≤ 30)
    (ht : total0 < 2 ^ 32) {stream0 stream1 : Bytes} {subs0 subs1 : List (Bytes × List Bool)} (hs0 : FreqStream (2 ^ nbits) total0 stream0 subs0)
    (hs1 : FreqStream (2 ^ nbits) total1 stream1 subs1) (hcap : (keysOf subs1).card ≤ total0)
    (hsz : (keysOf subs1).card * 2 ^ nbits < 2 ^ 32) {st0 st1 : Store} (hst : StoresOk intModulus st0 st1)
    (ord : Map (List Bool) → Map (List Bool)) (ho : IsOrder ord) :
    ∃ r st0' st1' q, Ends (freqOp0 c g0 nbits total0 stream0 st0) (freqOp1 c g1 nbits total1 stream1 ord st1) (r, st0') (.noAns, st1') q [] ∧
      (r = .invalid ↔ 2 * (if totalWeight (2 ^ nbits) subs0 subs1 = total0 then keysOf subs1 else oneHotKeys (2 ^ nbits) subs0 subs1).card < total0) := by
  obtain ⟨st0', st1', -, h2, h3⟩ := C44_freq_op c (g1 := g1) hg hb ht hs0 hs1 hcap hsz hst ord ho
  split_ifs with hW
  · refine ⟨_, st0', st1', _, h2 hW, ?_⟩
    unfold verdict
    split_ifs with hv <;> simp [hv]
  · refine ⟨_, st0', st1', _, h3 hW, ?_⟩
    unfold verdict
    split_ifs with hv <;> simp [hv]

/-- The individual check is reached: one submission of weight 2, one of weight 1. -/
example : totalWeight 2 [(keyA, [true, true]), (keyB, [false, true])] [(keyA, [false, false]), (keyB, [false, false])] ≠ 2 ∧
    oneHotKeys 2 [(keyA, [true, true]), (keyB, [false, true])] [(keyA, [false, false]), (keyB, [false, false])] = {keyB} := by decide

/-! ## C60: the table of keys at server 0 -/

/-- Server 0 runs into undefined behaviour under every schedule: it never finishes, and whatever has been executed, a state in which it
has faulted can be reached. -/
def Faults0 {α β : Type} (P0 : Proc α) (P1 : Proc β) : Prop :=
  ∀ u, Steps ⟨P0, P1, [], []⟩ u → (∀ a, u.p0 ≠ .ret a) ∧ ∃ w, Steps u w ∧ w.p0 = .fault

theorem steps_join {α β : Type} {s t u : Sys α β} (h : Steps s t) (h' : Steps s u) : ∃ w, Steps t w ∧ Steps u w := by
  obtain ⟨n, h⟩ := h
  obtain ⟨m, h'⟩ := h'
  have one : ∀ {n : ℕ} {s t : Sys α β}, StepsN n s t → ∀ u, Step s u → ∃ w, (t = w ∨ Step t w) ∧ Steps u w := by
    intro n s t h
    induction h with
    | refl s => intro u hu; exact ⟨u, .inr hu, .refl _⟩
    | @head n s v t hsv hvt ih =>
      intro u hu
      rcases diamond hsv hu with rfl | ⟨w, hvw, huw⟩
      · exact ⟨t, .inl rfl, ⟨_, hvt⟩⟩
      · obtain ⟨x, hx, hw⟩ := ih w hvw
        exact ⟨x, hx, .head huw hw⟩
  induction h' generalizing n t with
  | refl s => exact ⟨t, .refl _, ⟨n, h⟩⟩
  | @head m s v u hsv hvu ih =>
    obtain ⟨w, hw, n', hv⟩ := one h v hsv
    obtain ⟨x, h1, h2⟩ := ih _ hv
    refine ⟨x, ?_, h2⟩
    rcases hw with rfl | hw
    · exact h1
    · exact .head hw h1

theorem steps_fault0 {α β : Type} {s t : Sys α β} (h : Steps s t) (hs : s.p0 = .fault) : t.p0 = .fault := by
  obtain ⟨n, h⟩ := h
  induction h with
  | refl => exact hs
  | head hs' _ ih => refine ih ?_; cases hs' <;> simp_all

theorem steps_ret0 {α β : Type} {s t : Sys α β} {a : α} (h : Steps s t) (hs : s.p0 = .ret a) : t.p0 = .ret a := by
  obtain ⟨n, h⟩ := h
  induction h with
  | refl => exact hs
  | head hs' _ ih => refine ih ?_; cases hs' <;> simp_all

theorem Faults0.ofSteps {α β : Type} {P0 : Proc α} {P1 : Proc β} {t : Sys α β} (h : Steps ⟨P0, P1, [], []⟩ t) (ht : t.p0 = .fault) :
    Faults0 P0 P1 := by
  intro u hu
  obtain ⟨w, h1, h2⟩ := steps_join h hu
  have hw := steps_fault0 h1 ht
  refine ⟨fun a ha => ?_, w, h2, hw⟩
  rw [steps_ret0 h2 ha] at hw
  cases hw

theorem steps_sendKeys {γ δ : Type} : ∀ (ks : List Bytes) (P0 : Proc γ) (k1 : Unit → Proc δ) (q q' : Bytes),
    Steps ⟨P0, (sendKeys ks).bind k1, q, q'⟩ ⟨P0, k1 (), q, q' ++ ks.flatten⟩
  | [], _, _, _, _ => by rw [List.flatten_nil, List.append_nil]; exact .refl _
  | k :: ks, P0, k1, q, q' => by
    refine .head (.send1 ..) ?_
    have := steps_sendKeys ks P0 k1 q (q' ++ k)
    rwa [List.append_assoc, ← List.flatten_cons] at this

theorem steps_announce {γ δ : Type} (ks : List Bytes) (P0 : Proc γ) (k1 : Unit → Proc δ) (q : Bytes) :
    Steps ⟨P0, (announce ks).bind k1, q, []⟩ ⟨P0, k1 (), q, encSize (BitVec.ofNat 64 ks.length) ++ ks.flatten⟩ := by
  unfold announce
  rw [Proc.bind_assoc]
  refine .head (.send1 ..) ?_
  exact steps_sendKeys ks _ k1 q _

theorem steps_overrun {γ δ : Type} (cap : ℕ) : ∀ (ks : List Bytes) (i : ℕ) (k0 : List Bytes → Proc γ) (P1 : Proc δ) (q : Bytes),
    (∀ k ∈ ks, k.length = pkLength) → i ≤ cap → cap < i + ks.length →
    ∃ q', Steps ⟨(recvKeysInto cap i ks.length).bind k0, P1, q, ks.flatten⟩ ⟨.fault, P1, q, q'⟩
  | [], i, _, _, _, _, h1, h2 => by simp at h2; omega
  | k :: ks, i, k0, P1, q, hk, h1, h2 => by
    rw [List.length_cons, recvKeysInto, Proc.bind_assoc, List.flatten_cons]
    have hr : (Rd.get pkLength .ret).run (k ++ ks.flatten) = some (k, ks.flatten) :=
      Reads.getRet (k := id) (hk k (List.mem_cons_self ..)) _
    rw [List.length_cons] at h2
    by_cases hi : i < cap
    · obtain ⟨q', h⟩ := steps_overrun cap ks (i + 1) (fun ks => k0 (k :: ks)) P1 q (fun k' h' => hk k' (List.mem_cons_of_mem _ h')) hi (by omega)
      refine ⟨q', (steps_read0 _ _ _ _ hr _ _ _).trans ?_⟩
      rw [if_pos hi, Proc.bind_assoc]
      exact h
    · refine ⟨ks.flatten, (steps_read0 _ _ _ _ hr _ _ _).trans ?_⟩
      rw [if_neg hi]
      exact .refl _

theorem listen_overrun {γ δ : Type} (cap : ℕ) (ks : List Bytes) (hk : ∀ k ∈ ks, k.length = pkLength) (hl : ks.length < 2 ^ 32)
    (hc : cap < ks.length) (k0 : List Bytes → Proc γ) (k1 : Unit → Proc δ) :
    Faults0 (rdSize.toProc.bind fun n => (recvKeysInto cap 0 n.toNat).bind k0) ((announce ks).bind k1) := by
  obtain ⟨q', hov⟩ := steps_overrun cap ks 0 k0 (k1 ()) [] hk (Nat.zero_le _) (by omega)
  have e : (BitVec.ofNat 64 ((BitVec.ofNat 64 ks.length : U64).toNat % 2 ^ 32) : U64).toNat = ks.length := by
    rw [BitVec.toNat_ofNat, BitVec.toNat_ofNat]
    omega
  have h1 := steps_read0 rdSize _ ks.flatten _ (reads_size (BitVec.ofNat 64 ks.length) ks.flatten)
    (fun n => (recvKeysInto cap 0 n.toNat).bind k0) (k1 ()) []
  rw [e] at h1
  exact Faults0.ofSteps ((steps_announce ks _ k1 []).trans (h1.trans hov)) rfl

/-- C60: server 0 writes behind its table of keys, whatever the schedule, iff server 1 has more distinct keys than server 0's announced
count. -/
theorem C60_bounds_iff (c : StoreCfg) {g0 g1 : StoreRng} (hg : GoodRng intModulus g0) {nbits total0 total1 : ℕ} (hb : nbits ≤ 30)
    (ht : total0 < 2 ^ 32) {stream0 stream1 : Bytes} {subs0 subs1 : List (Bytes × List Bool)} (hs0 : FreqStream (2 ^ nbits) total0 stream0 subs0)
    (hs1 : FreqStream (2 ^ nbits) total1 stream1 subs1) (hsz : (keysOf subs1).card * 2 ^ nbits < 2 ^ 32)
    {st0 st1 : Store} (hst : StoresOk intModulus st0 st1) (ord : Map (List Bool) → Map (List Bool)) (ho : IsOrder ord) :
    Faults0 (freqOp0 c g0 nbits total0 stream0 st0) (freqOp1 c g1 nbits total1 stream1 ord st1) ↔ total0 < (keysOf subs1).card := by
  constructor
  · intro h
    by_contra hc
    obtain ⟨G, st0', st1', q, he, -⟩ := C45_weight_partial c (g1 := g1) hg hb ht hs0 hs1 (by omega) hsz hst ord ho
    exact (h _ (he.1 _ (.refl _)).1).1 _ rfl
  · intro h
    have e0 : freqOp0 c g0 nbits total0 stream0 st0 = freq0 c g0 (2 ^ nbits) total0 (admit anyRow subs0 []) st0 := by
      obtain ⟨r, e⟩ := hs0
      unfold freqOp0 freqWidth freqIntake
      rw [if_pos hb]
      show Proc.bind (Proc.ofOption (Option.map _ (((rdFreqShare (2 ^ nbits)).rep total0).run stream0))) _ = _
      rw [e]; rfl
    have e1 : freqOp1 c g1 nbits total1 stream1 ord st1 = freq1 c g1 (2 ^ nbits) (ord (admit anyRow subs1 [])) st1 := by
      obtain ⟨r, e⟩ := hs1
      unfold freqOp1 freqWidth freqIntake
      rw [if_pos hb]
      show Proc.bind (Proc.ofOption (Option.map _ (((rdFreqShare (2 ^ nbits)).rep total1).run stream1))) _ = _
      rw [e]; rfl
    rw [e0, e1]
    have hp := ho (admit anyRow subs1 [])
    generalize ord (admit anyRow subs1 []) = o at hp
    have hcard : (keysOf subs1).card = o.keys.length := by rw [← order_keys hp, List.toFinset_card_of_nodup (order_nodup hp)]
    have hkl : o.keys.length < 2 ^ 32 := by
      rw [← hcard]; exact lt_of_le_of_lt (Nat.le_mul_of_pos_right _ (by positivity)) hsz
    unfold freq0 freq1
    exact listen_overrun total0 o.keys (order_keyed hp hs1.spec.2.1) hkl (by omega) _ _

/-- Both sides occur: one key at server 1 fits into a table for one, two do not. -/
example : (keysOf [(keyA, [true, true])]).card = 1 ∧ (keysOf [(keyA, [true, true]), (keyB, [true, true])]).card = 2 := by decide

end Verif

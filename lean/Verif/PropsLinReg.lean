import Verif.LemmasLinReg

/-!
# C42 (and C33, C34, C48, C49, C56) for LINREG
-/

namespace Verif

/-! ## Specification -/

/-- The stream announces degree `d` and holds `total` submissions of that degree. -/
def LinStream (d total : ℕ) (s : Bytes) (subs : List (Bytes × LinRow)) : Prop :=
  ∃ s' rest, rdSize.run s = some (BitVec.ofNat 64 d, s') ∧ ((rdLinShare d (linMul d)).rep total).run s' = some (subs, rest)

/-- Shares of features and label fit in `nbits` bits, those of products in twice as many. -/
def linFits (nbits : ℕ) (r : LinRow) : Bool :=
  r.x.all (fun v => decide (v.toNat < 2 ^ nbits)) && decide (r.y.toNat < 2 ^ nbits) &&
    r.x2.all (fun v => decide (v.toNat < 2 ^ (2 * nbits))) && r.xy.all fun v => decide (v.toNat < 2 ^ (2 * nbits))

/-- The values of a submission: features, label, pair products, features times label. -/
structure LinVal where
  x : List ℕ
  y : ℕ
  x2 : List ℕ
  xy : List ℕ

/-- The XOR of two lists of shares. -/
def xors (l l' : List U64) : List ℕ := List.zipWith (fun a b => (a ^^^ b).toNat) l l'

/-- The values behind two rows of shares. -/
def linRec (r0 r1 : LinRow) : LinVal := ⟨xors r0.x r1.x, (r0.y ^^^ r1.y).toNat, xors r0.x2 r1.x2, xors r0.xy r1.xy⟩

/-- All values in the order of the circuit inputs. -/
def LinVal.all (v : LinVal) : List ℕ := v.x ++ [v.y] ++ v.x2 ++ v.xy

/-- The values submitted under a key. -/
def linAt (nbits : ℕ) (subs0 subs1 : List (Bytes × LinRow)) (k : Bytes) : LinVal :=
  match firstOf (linFits nbits) subs0 k, firstOf (linFits nbits) subs1 k with
  | some r0, some r1 => linRec r0 r1
  | _, _ => ⟨[], 0, [], []⟩

/-- The submission under `k` passes the check with coefficients `cs` at the point `x`. -/
def LinPasses (c : Circuit) (x : ℤ) (nbits : ℕ) (subs0 subs1 : List (Bytes × LinRow)) (cs : List ℤ) (k : Bytes) : Prop :=
  ∃ r0 r1, firstOf (linFits nbits) subs0 k = some r0 ∧ firstOf (linFits nbits) subs1 k = some r1 ∧
    Accepts c x cs ((linRec r0 r1).all.map fun v : ℕ => fmod (v : ℤ) intModulus) r0.packet r1.packet

open Classical in
/-- The keys whose submissions are counted: held by both servers, and the check passes. -/
noncomputable def linCounted (c : Circuit) (x : ℤ) (coef : ℕ → ℤ) (pos nbits : ℕ) (subs0 subs1 : List (Bytes × LinRow)) (order : List Bytes) :
    Finset Bytes :=
  (bothKeys (linFits nbits) subs0 subs1).filter fun k =>
    LinPasses c x nbits subs0 subs1 (coefs coef pos (c.resultZero.length + 1) (order.idxOf k)) k

/-- The accumulators over the keys `G`: count, sums of features, sums of pair products. -/
def xAcc (d : ℕ) (G : Finset Bytes) (v : Bytes → LinVal) : List ℕ :=
  G.card :: (List.range (d - 1)).map (fun i => (∑ k ∈ G, (v k).x.getD i 0) % intModulus) ++
    (List.range (numQuad d)).map fun q => (∑ k ∈ G, (v k).x2.getD q 0) % intModulus

/-- The accumulators over the keys `G`: sum of labels, sums of features times label. -/
def yAcc (d : ℕ) (G : Finset Bytes) (v : Bytes → LinVal) : List ℕ :=
  (∑ k ∈ G, (v k).y) % intModulus :: (List.range (d - 1)).map fun i => (∑ k ∈ G, (v k).xy.getD i 0) % intModulus

/-! ## Intake -/

theorem takes_lin (d nMul : ℕ) : Takes (rdLinShare d nMul) (pkLength + (8 * (d - 1) + (8 + (8 * numQuad d + (8 * (d - 1) + (8 * (nMul + npow2 nMul + 6) + 0)))))) fun e =>
    e.1.length = pkLength ∧ e.2.x.length = d - 1 ∧ e.2.x2.length = numQuad d ∧ e.2.xy.length = d - 1 ∧
      e.2.packet.mulShares.length = nMul ∧ e.2.packet.hPoints.length = npow2 nMul := by
  unfold rdLinShare
  refine Takes.get fun pk hpk => (takes_words _).bind fun x hx => takes_u64.bind fun y _ => (takes_words _).bind fun x2 hx2 =>
    (takes_words _).bind fun xy hxy => (takes_packet nMul).bind fun k hk => Takes.ret ?_
  exact ⟨hpk, hx, hx2, hxy, hk.1, hk.2.1⟩

theorem LinStream.spec {d total : ℕ} {s : Bytes} {subs : List (Bytes × LinRow)} (h : LinStream d total s subs) {c : Circuit}
    (hc : c.mulGates.length = linMul d) : subs.length = total ∧ Keyed subs ∧ ∀ e ∈ subs, LinRowOk c d e.2 := by
  obtain ⟨s', rest, -, h⟩ := h
  obtain ⟨-, -, h1, h2⟩ := ((takes_lin d (linMul d)).rep total).of_run h
  refine ⟨h1, fun e he => (h2 e he).1, fun e he => ?_⟩
  obtain ⟨-, a1, a2, a3, a4, a5⟩ := h2 e he
  exact ⟨a1, a2, a3, ⟨by rw [a4, hc], by rw [a5, hc]⟩⟩

/-- C49, the range test of LINREG: up to 31 bits it says what it should. -/
theorem C49_lin_range {nbits : ℕ} (h : nbits ≤ 31) : linOk (1#64 <<< nbits) = linFits nbits := by
  funext r
  have hm : (1#64 <<< nbits : U64).toNat = 2 ^ nbits := shl_toNat (by omega)
  have hmm : ((1#64 <<< nbits : U64) * (1#64 <<< nbits)).toNat = 2 ^ (2 * nbits) := by
    rw [BitVec.toNat_mul, hm, ← pow_add, ← two_mul, Nat.mod_eq_of_lt]
    exact Nat.pow_lt_pow_right (by omega) (by omega)
  have e1 : ∀ v : U64, (!decide ((1#64 <<< nbits : U64) ≤ v)) = decide (v.toNat < 2 ^ nbits) := by
    intro v; rw [← decide_not]; exact decide_eq_decide.2 (by rw [BitVec.le_def, hm]; omega)
  have e2 : ∀ v : U64, (!decide ((1#64 <<< nbits : U64) * (1#64 <<< nbits) ≤ v)) = decide (v.toNat < 2 ^ (2 * nbits)) := by
    intro v; rw [← decide_not]; exact decide_eq_decide.2 (by rw [BitVec.le_def, hmm]; omega)
  unfold linOk linFits
  simp only [e1, e2]
  rcases r.x.all _ <;> rcases r.xy.all _ <;> rcases decide (r.y.toNat < 2 ^ nbits) <;> rcases r.x2.all _ <;> rfl

/-- C49 is false from 32 bits on: the bound on products wraps around to 0, and every submission of degree at least 2 is refused. -/
theorem C49_lin_wrap {nbits : ℕ} (h : 32 ≤ nbits) (h' : nbits < 64) {r : LinRow} (hr : r.xy ≠ []) :
    linOk (1#64 <<< nbits) r = false := by
  have hz : ((1#64 <<< nbits : U64) * (1#64 <<< nbits)) = 0#64 := by
    apply BitVec.eq_of_toNat_eq
    rw [BitVec.toNat_mul, shl_toNat h', ← pow_add]
    exact Nat.mod_eq_zero_of_dvd (pow_dvd_pow 2 (by omega))
  obtain ⟨a, l, e⟩ := List.exists_cons_of_ne_nil hr
  unfold linOk
  rw [hz, e]
  simp [BitVec.le_def]

theorem lin_intake {d nbits total : ℕ} (h : nbits ≤ 31) {s : Bytes} {subs : List (Bytes × LinRow)} {rest : Bytes}
    (hs : ((rdLinShare d (linMul d)).rep total).run s = some (subs, rest)) :
    linIntake d (linMul d) nbits total s = some (admit (linFits nbits) subs []) := by
  unfold linIntake maxVal
  rw [if_pos (by omega), Option.bind_some, hs, Option.map_some, C49_lin_range h]

/-- C34 for LINREG: what is stored under a key is the first admissible submission for it; each key is stored once. -/
theorem C34_lin_intake {d nbits total : ℕ} (h : nbits ≤ 31) {s : Bytes} {subs : List (Bytes × LinRow)} {rest : Bytes}
    (hs : ((rdLinShare d (linMul d)).rep total).run s = some (subs, rest)) :
    ∃ m, linIntake d (linMul d) nbits total s = some m ∧ m.keys.Nodup ∧ ∀ k, List.lookup k m = firstOf (linFits nbits) subs k :=
  ⟨_, lin_intake h hs, C34_keys_once _ _, C34_first_admissible _ _⟩

/-! ## Flat and structured values -/

theorem xors_all {r0 r1 : LinRow} (h1 : r0.x.length = r1.x.length) (h2 : r0.x2.length = r1.x2.length) :
    (linRec r0 r1).all = xors r0.flat.vals r1.flat.vals := by
  unfold linRec LinVal.all LinRow.flat xors
  simp only
  rw [List.zipWith_append (by simp [h1, h2]), List.zipWith_append (by simp [h1]), List.zipWith_append h1]
  rfl

theorem xors_getD (l l' : List U64) (h : l.length = l'.length) (j : ℕ) : (xors l l').getD j 0 = (l.getD j 0#64 ^^^ l'.getD j 0#64).toNat := by
  unfold xors
  simp only [List.getD_eq_getElem?_getD, List.getElem?_zipWith]
  by_cases hj : j < l.length
  · rw [List.getElem?_eq_getElem hj, List.getElem?_eq_getElem (by omega)]; rfl
  · rw [List.getElem?_eq_none (by omega), List.getElem?_eq_none (by omega)]; rfl

theorem all_getD {d : ℕ} (hd : 1 ≤ d) {v : LinVal} (h1 : v.x.length = d - 1) (h2 : v.x2.length = numQuad d) :
    (∀ i < d - 1, v.all.getD i 0 = v.x.getD i 0) ∧ v.all.getD (d - 1) 0 = v.y ∧
    (∀ q < numQuad d, v.all.getD (d + q) 0 = v.x2.getD q 0) ∧ ∀ i, v.all.getD (d + numQuad d + i) 0 = v.xy.getD i 0 := by
  have l1 : (v.x ++ [v.y]).length = d := by simp; omega
  have l2 : (v.x ++ [v.y] ++ v.x2).length = d + numQuad d := by rw [List.length_append, l1, h2]
  unfold LinVal.all
  refine ⟨fun i hi => ?_, ?_, fun q hq => ?_, fun i => ?_⟩
  · rw [List.getD_append _ _ _ _ (by rw [l2]; omega), List.getD_append _ _ _ _ (by rw [l1]; omega),
      List.getD_append _ _ _ _ (by rw [h1]; omega)]
  · rw [List.getD_append _ _ _ _ (by rw [l2]; omega), List.getD_append _ _ _ _ (by rw [l1]; omega), ← h1,
      List.getD_append_right _ _ _ _ le_rfl, Nat.sub_self]; rfl
  · rw [List.getD_append _ _ _ _ (by rw [l2]; omega), List.getD_append_right _ _ _ _ (by rw [l1]; omega), l1, Nat.add_sub_cancel_left]
  · rw [List.getD_append_right _ _ _ _ (by rw [l2]; omega), l2, Nat.add_sub_cancel_left]

theorem linFits_all {d nbits : ℕ} (hd : 1 ≤ d) {c : Circuit} {r : LinRow} (hr : LinRowOk c d r) (h : linFits nbits r = true) (j : ℕ) (hj : j < numFields d) :
    (r.flat.vals.getD j 0#64).toNat < 2 ^ (nbits * if d ≤ j then 2 else 1) := by
  simp only [linFits, Bool.and_eq_true, List.all_eq_true, decide_eq_true_eq] at h
  obtain ⟨⟨⟨a1, a2⟩, a3⟩, a4⟩ := h
  have l1 : (r.x ++ [r.y]).length = d := by have := hr.x; simp; omega
  have hl := flat_length hd hr
  by_cases hdj : d ≤ j
  · rw [if_pos hdj, mul_comm]
    have : r.flat.vals.getD j 0#64 = (r.x2 ++ r.xy).getD (j - d) 0#64 := by
      unfold LinRow.flat
      simp only
      rw [List.append_assoc, List.getD_append_right _ _ _ _ (by omega), l1]
    rw [this]
    have hlt : j - d < (r.x2 ++ r.xy).length := by
      have := numFields_eq hd
      simp only [List.length_append, hr.x2, hr.xy]; omega
    rw [List.getD_eq_getElem?_getD, List.getElem?_eq_getElem hlt, Option.getD_some]
    rcases List.mem_append.1 (List.getElem_mem hlt) with hm | hm
    · exact a3 _ hm
    · exact a4 _ hm
  · rw [if_neg hdj, mul_one]
    have : r.flat.vals.getD j 0#64 = (r.x ++ [r.y]).getD j 0#64 := by
      unfold LinRow.flat
      simp only
      rw [List.append_assoc, List.getD_append _ _ _ _ (by omega)]
    rw [this]
    have hlt : j < (r.x ++ [r.y]).length := by omega
    rw [List.getD_eq_getElem?_getD, List.getElem?_eq_getElem hlt, Option.getD_some]
    rcases List.mem_append.1 (List.getElem_mem hlt) with hm | hm
    · exact a1 _ hm
    · rw [List.mem_singleton.1 hm]; exact a2

theorem recVal_lin {d nbits : ℕ} (hd : 1 ≤ d) {c : Circuit} {r0 r1 : LinRow} (h0 : LinRowOk c d r0) (h1 : LinRowOk c d r1)
    (f0 : linFits nbits r0 = true) (f1 : linFits nbits r1 = true) (j : ℕ) (hj : j < numFields d) :
    recVal (linWidths d nbits) r0.flat r1.flat j = (linRec r0 r1).all.getD j 0 := by
  rw [xors_all (by rw [h0.x, h1.x]) (by rw [h0.x2, h1.x2]), xors_getD _ _ (by rw [flat_length hd h0, flat_length hd h1])]
  unfold recVal
  have hw : (linWidths d nbits).getD j 0 = nbits * if d ≤ j then 2 else 1 := by
    simp [linWidths, List.getD_eq_getElem?_getD, hj]
  rw [hw, Nat.mod_eq_of_lt]
  rw [BitVec.toNat_xor]
  exact Nat.xor_lt_two_pow (linFits_all hd h0 f0 j hj) (linFits_all hd h1 f1 j hj)

theorem all_length {d : ℕ} (hd : 1 ≤ d) {c : Circuit} {r0 r1 : LinRow} (h0 : LinRowOk c d r0) (h1 : LinRowOk c d r1) :
    (linRec r0 r1).all.length = numFields d := by
  rw [xors_all (by rw [h0.x, h1.x]) (by rw [h0.x2, h1.x2]), xors, List.length_zipWith, flat_length hd h0, flat_length hd h1, min_self]

theorem recIn_lin {d nbits : ℕ} (hd : 1 ≤ d) {c : Circuit} {r0 r1 : LinRow} (h0 : LinRowOk c d r0) (h1 : LinRowOk c d r1)
    (f0 : linFits nbits r0 = true) (f1 : linFits nbits r1 = true) :
    recIn (linWidths d nbits) r0.flat r1.flat = (linRec r0 r1).all.map fun v : ℕ => fmod (v : ℤ) intModulus := by
  have hl := all_length hd h0 h1
  unfold recIn
  apply List.ext_getElem
  · simp [linWidths, hl]
  · intro j a b
    have hj : j < numFields d := by simpa [linWidths] using a
    have hj' : j < (linRec r0 r1).all.length := by omega
    simp only [List.getElem_map, List.getElem_range, recVal_lin hd h0 h1 f0 f1 j hj, List.getD_eq_getElem?_getD,
      List.getElem?_eq_getElem hj', Option.getD_some]

theorem keys_lin {d nbits : ℕ} (hd : 1 ≤ d) {c : Circuit} {subs : List (Bytes × LinRow)} (h : ∀ e ∈ subs, LinRowOk c d e.2) :
    ∀ e ∈ subs, (fun s => linFits nbits (unflat d s)) (LinRow.flat e.2) = linFits nbits e.2 := by
  intro e he
  simp only [unflat_flat hd (h e he)]

theorem passing_lin {d nbits : ℕ} (hd : 1 ≤ d) {c : Circuit} {subs0 subs1 : List (Bytes × LinRow)} (h0 : ∀ e ∈ subs0, LinRowOk c d e.2)
    (h1 : ∀ e ∈ subs1, LinRowOk c d e.2) (x : ℤ) (coef : ℕ → ℤ) (pos : ℕ) (o : List Bytes) :
    passing c x coef pos (linWidths d nbits) (fun s => linFits nbits (unflat d s)) (subs0.map fun e => (e.1, e.2.flat))
      (subs1.map fun e => (e.1, e.2.flat)) o = linCounted c x coef pos nbits subs0 subs1 o := by
  classical
  unfold passing linCounted
  rw [bothKeys_map LinRow.flat subs0 subs1 (keys_lin hd h0) (keys_lin hd h1)]
  refine Finset.filter_congr fun k _ => ?_
  unfold Passes LinPasses
  rw [firstOf_map LinRow.flat subs0 (keys_lin (nbits := nbits) hd h0), firstOf_map LinRow.flat subs1 (keys_lin (nbits := nbits) hd h1)]
  constructor
  · rintro ⟨a, b, e0, e1, h⟩
    obtain ⟨r0, f0, rfl⟩ := Option.map_eq_some_iff.1 e0
    obtain ⟨r1, f1, rfl⟩ := Option.map_eq_some_iff.1 e1
    rw [recIn_lin hd (h0 _ (firstOf_mem f0)) (h1 _ (firstOf_mem f1)) (firstOf_ok f0) (firstOf_ok f1)] at h
    exact ⟨r0, r1, f0, f1, h⟩
  · rintro ⟨r0, r1, f0, f1, h⟩
    refine ⟨r0.flat, r1.flat, by rw [f0]; rfl, by rw [f1]; rfl, ?_⟩
    rw [recIn_lin hd (h0 _ (firstOf_mem f0)) (h1 _ (firstOf_mem f1)) (firstOf_ok f0) (firstOf_ok f1)]
    exact h

theorem keyVal_lin {d nbits : ℕ} (hd : 1 ≤ d) {c : Circuit} {subs0 subs1 : List (Bytes × LinRow)} (h0 : ∀ e ∈ subs0, LinRowOk c d e.2)
    (h1 : ∀ e ∈ subs1, LinRowOk c d e.2) {k : Bytes} (hk : k ∈ bothKeys (linFits nbits) subs0 subs1) (j : ℕ) (hj : j < numFields d) :
    keyVal (linWidths d nbits) (fun s => linFits nbits (unflat d s)) (subs0.map fun e => (e.1, e.2.flat))
      (subs1.map fun e => (e.1, e.2.flat)) j k = (linAt nbits subs0 subs1 k).all.getD j 0 := by
  unfold keyVal linAt
  rw [firstOf_map LinRow.flat subs0 (keys_lin (nbits := nbits) hd h0), firstOf_map LinRow.flat subs1 (keys_lin (nbits := nbits) hd h1)]
  simp only [bothKeys, Finset.mem_filter, Option.isSome_iff_exists] at hk
  obtain ⟨-, ⟨r0, f0⟩, ⟨r1, f1⟩⟩ := hk
  rw [f0, f1]
  exact recVal_lin hd (h0 _ (firstOf_mem f0)) (h1 _ (firstOf_mem f1)) (firstOf_ok f0) (firstOf_ok f1) j hj

theorem linAt_lengths {d nbits : ℕ} {c : Circuit} {subs0 subs1 : List (Bytes × LinRow)} (h0 : ∀ e ∈ subs0, LinRowOk c d e.2)
    (h1 : ∀ e ∈ subs1, LinRowOk c d e.2) {k : Bytes} (hk : k ∈ bothKeys (linFits nbits) subs0 subs1) :
    (linAt nbits subs0 subs1 k).x.length = d - 1 ∧ (linAt nbits subs0 subs1 k).x2.length = numQuad d ∧
      (linAt nbits subs0 subs1 k).xy.length = d - 1 := by
  simp only [bothKeys, Finset.mem_filter, Option.isSome_iff_exists] at hk
  obtain ⟨-, ⟨r0, f0⟩, ⟨r1, f1⟩⟩ := hk
  have a := h0 _ (firstOf_mem f0)
  have b := h1 _ (firstOf_mem f1)
  unfold linAt
  rw [f0, f1]
  simp [linRec, xors, a.x, b.x, a.x2, b.x2, a.xy, b.xy]

/-! ## C42: the operation -/

theorem linCounted_sub {c : Circuit} {x : ℤ} {coef : ℕ → ℤ} {pos nbits : ℕ} {subs0 subs1 : List (Bytes × LinRow)} {o : List Bytes} :
    linCounted c x coef pos nbits subs0 subs1 o ⊆ bothKeys (linFits nbits) subs0 subs1 := by
  classical exact Finset.filter_subset _ _

theorem bothKeys_card {α : Type} (ok : α → Bool) (subs0 subs1 : List (Bytes × α)) : (bothKeys ok subs0 subs1).card ≤ subs0.length := by
  unfold bothKeys
  refine (Finset.card_filter_le _ _).trans ((List.toFinset_card_le _).trans ?_)
  rw [List.length_map]

theorem lin_pair {d : ℕ} (hd : 1 ≤ d) (hsm : linMul d < 2 ^ 18) {nbits : ℕ} (hb : nbits ≤ 24) {total0 total1 : ℕ} (ht0 : total0 < 2 ^ 64)
    (ht : total1 < 2 ^ 32) {s0 s1 : Bytes}
    {subs0 subs1 : List (Bytes × LinRow)} (h0 : LinStream d total0 s0 subs0) (h1 : LinStream d total1 s1 subs1)
    (hne : ∃ e ∈ subs1, linFits nbits e.2 = true) {x : ℤ} {uses pos : ℕ} {st0 st1 : SnipState} (hs0 : SnipOk x uses pos st0)
    (hs1 : SnipOk x uses pos st1) (coef : ℕ → ℤ) (raw0 raw1 : ℕ → ℕ → ℕ → U64) (u : ℕ → ℕ → U64) (ord : Map LinRow → Map LinRow)
    (ho : IsOrder ord) {c : Circuit} (hc : checkLinReg intModulus d = some c) :
    ∃ st0' st1' xa ya r, let o := (ord (admit (linFits nbits) subs1 [])).keys
      let G := linCounted c x coef pos nbits subs0 subs1 o
      Pair (linOp0 nbits total0 s0 coef raw0 u st0) (linOp1 nbits total1 s1 coef raw1 st1 ord)
        (verdict G.card total0 r, st0') (.noAns, st1') ∧ solveLinReg d xa ya = some r ∧
      xa.map (·.toNat) = xAcc d G (linAt nbits subs0 subs1) ∧ ya.map (·.toNat) = yAcc d G (linAt nbits subs0 subs1) ∧
      SnipOk x (uses + o.length) (pos + o.length * (linMul d + 1)) st0' ∧ SnipOk x (uses + o.length) (pos + o.length * (linMul d + 1)) st1' := by
  obtain ⟨c', e', hcok, hmul, hzero, hin, -⟩ := linCircuit hd hsm
  rw [hc] at e'; cases e'
  obtain ⟨l0, k0, r0⟩ := h0.spec hmul
  obtain ⟨l1, k1, r1⟩ := h1.spec hmul
  obtain ⟨t0, rest0, d0, h0⟩ := h0
  obtain ⟨t1, rest1, d1, h1⟩ := h1
  have hp := ho (admit (linFits nbits) subs1 [])
  have hdn : (BitVec.ofNat 64 d).toNat = d := by
    rw [BitVec.toNat_ofNat, Nat.mod_eq_of_lt]
    have : d - 1 ≤ linMul d := by unfold linMul; omega
    omega
  unfold linOp0 linOp1
  simp only [d0, d1, Proc.ofOption, Proc.bind, hdn, hc, hmul, lin_intake (by omega : nbits ≤ 31) h0, lin_intake (by omega : nbits ≤ 31) h1]
  generalize ord (admit (linFits nbits) subs1 []) = o at hp
  have hpos : 0 < o.length := by rw [hp.length_eq]; exact admit_pos hne
  have hwl : (linWidths d nbits).length = numFields d := by simp [linWidths]
  have hw : ∀ w ∈ linWidths d nbits, w ≤ 48 := by
    intro w hw
    obtain ⟨i, -, rfl⟩ := List.mem_map.1 hw
    split_ifs <;> omega
  set ok' : SnipRow → Bool := fun s => linFits nbits (unflat d s) with hok'
  set F0 : List (Bytes × SnipRow) := subs0.map fun e => (e.1, e.2.flat) with hF0
  set F1 : List (Bytes × SnipRow) := subs1.map fun e => (e.1, e.2.flat) with hF1
  have a0 : flatRows (admit (linFits nbits) subs0 []) = admit ok' F0 [] := admit_map LinRow.flat subs0 [] (keys_lin hd r0)
  have a1 : flatRows (admit (linFits nbits) subs1 []) = admit ok' F1 [] := admit_map LinRow.flat subs1 [] (keys_lin hd r1)
  have hkf : (flatRows o).keys = o.keys := by simp [flatRows, Map.keys, Function.comp_def]
  have hfl : (flatRows o).length = o.length := by simp [flatRows]
  have hrow : ∀ {subs : List (Bytes × LinRow)}, (∀ e ∈ subs, LinRowOk c d e.2) →
      ∀ e ∈ subs.map (fun e => (e.1, e.2.flat)), SnipRowOk c (linWidths d nbits).length e.2 := by
    intro subs h e he
    obtain ⟨e, hm, rfl⟩ := List.mem_map.1 he
    exact ⟨by rw [hwl]; exact flat_length hd (h e hm), (h e hm).pk⟩
  obtain ⟨a, b, st0', st1', hpair, ha, hbl, hac, hbc, q0, q1, hsum, -⟩ := snipOp_pair hcok hs0 hs1 coef
    (ws := linWidths d nbits) (by rw [hin, hwl]) hw raw0 raw1 (linJunk d u) (by intro i; rw [hwl]; simp [linJunk]) ok' F0 F1
    (by intro e he; obtain ⟨e, hm, rfl⟩ := List.mem_map.1 he; exact k1 e hm) (hrow r0) (hrow r1)
    (by rw [hF1, List.length_map, l1]; exact ht) (flatRows o) (by rw [← a1]; exact hp.map _) (by rw [hfl]; exact hpos)
  rw [hkf, passing_lin hd r0 r1] at hpair hsum
  rw [hfl, hzero] at q0 q1
  set G := linCounted c x coef pos nbits subs0 subs1 o.keys with hG
  set S : ℕ → ℕ := fun j => (∑ k ∈ G, (linAt nbits subs0 subs1 k).all.getD j 0) % intModulus with hS
  have hGsub : ∀ k ∈ G, k ∈ bothKeys (linFits nbits) subs0 subs1 := fun k hk => linCounted_sub hk
  have key : ∀ j < numFields d, fmod (b.getD j 0 + a.getD j 0) intModulus = (S j : ℤ) := by
    intro j hj
    have h := hsum j (by rw [hwl]; exact hj)
    rw [Finset.sum_congr rfl fun k hk => keyVal_lin hd r0 r1 (hGsub k hk) j hj] at h
    refine canon_eq_of_cast (fmod_canon _) ⟨by omega, ?_⟩ ?_
    · exact_mod_cast Nat.mod_lt _ (by decide)
    · rw [fmod_cast]
      push_cast [hS]
      rw [add_comm]
      push_cast at h
      exact h
  have hol : o.keys.length = o.length := by simp [Map.keys]
  obtain ⟨bx, y, bx2, bxy, hbe, m1, m2, m3⟩ := split_sums hd (by rw [hbl, hwl] : b.length = numFields d)
  have hnf := numFields_eq hd
  have n1 : (bx ++ [y]).length = d := by simp; omega
  have n2 : (bx ++ [y] ++ bx2).length = d + numQuad d := by rw [List.length_append, n1, m2]
  have g1 : addOwn a 0 bx = (List.range (d - 1)).map fun j => BitVec.ofNat 64 (S (0 + j)) := by
    rw [← m1]
    refine addOwn_eq (b := b) (fun j hj => key _ (by omega)) fun j hj => ?_
    rw [hbe, zero_add, List.getD_append _ _ _ _ (by rw [n2]; omega), List.getD_append _ _ _ _ (by rw [n1]; omega), List.getD_append _ _ _ _ hj]
  have g2 : addOwn a (d - 1) [y] = (List.range 1).map fun j => BitVec.ofNat 64 (S (d - 1 + j)) := by
    refine addOwn_eq (b := b) (fun j hj => key _ (by simp at hj; omega)) fun j hj => ?_
    have : j = 0 := by simpa using hj
    subst this
    rw [hbe, Nat.add_zero, List.getD_append _ _ _ _ (by rw [n2]; omega), List.getD_append _ _ _ _ (by rw [n1]; omega),
      List.getD_append_right _ _ _ _ (by omega), m1, Nat.sub_self]
  have g3 : addOwn a d bx2 = (List.range (numQuad d)).map fun j => BitVec.ofNat 64 (S (d + j)) := by
    rw [← m2]
    refine addOwn_eq (b := b) (fun j hj => key _ (by omega)) fun j hj => ?_
    rw [hbe, List.getD_append _ _ _ _ (by rw [n2]; omega), List.getD_append_right _ _ _ _ (by rw [n1]; omega), n1, Nat.add_sub_cancel_left]
  have g4 : addOwn a (d + numQuad d) bxy = (List.range (d - 1)).map fun j => BitVec.ofNat 64 (S (d + numQuad d + j)) := by
    rw [← m3]
    refine addOwn_eq (b := b) (fun j hj => key _ (by omega)) fun j hj => ?_
    rw [hbe, List.getD_append_right _ _ _ _ (by rw [n2]; omega), n2, Nat.add_sub_cancel_left]
  have hcard : G.card < 2 ^ 64 := by
    have h1 := Finset.card_le_card hGsub
    have h2 := bothKeys_card (linFits nbits) subs0 subs1
    omega
  have hSlt : ∀ j, S j < 2 ^ 64 := fun j => lt_of_lt_of_le (Nat.mod_lt _ (by decide)) (by decide)
  have hSn : ∀ j, (BitVec.ofNat 64 (S j)).toNat = S j := fun j => by rw [BitVec.toNat_ofNat, Nat.mod_eq_of_lt (hSlt j)]
  have hv := fun k hk => all_getD hd (linAt_lengths r0 r1 (hGsub k hk)).1 (linAt_lengths r0 r1 (hGsub k hk)).2.1
  set xa := BitVec.ofNat 64 G.card :: addOwn a 0 bx ++ addOwn a d bx2 with hxa
  set ya := addOwn a (d - 1) [y] ++ addOwn a (d + numQuad d) bxy with hya
  obtain ⟨r, hr⟩ := solve_total hd (x := xa) (y := ya) (by rw [hxa, g1, g3]; simp; omega) (by rw [hya, g2, g4]; simp; omega)
  refine ⟨st0', st1', xa, ya, r, ?_, hr, ?_, ?_, by rw [hol]; exact q0, by rw [hol]; exact q1⟩
  · rw [a0, a1]
    refine hpair.bind ?_
    rw [encFmpzs_of_fits _ fun z hz => fits_canon (hbc z hz), hbe]
    refine (Pair.send10 (reads_linSums m1 m2 m3 fun z hz => fits_canon (hbc z (by rw [hbe]; exact hz)))).bind ?_
    simp only [← hxa, ← hya, hr, Proc.bind]
    unfold verdict
    by_cases hv : 2 * G.card < total0
    · rw [if_pos hv, if_pos ((C48_threshold _ _).2 hv)]; exact Pair.ret _ _
    · rw [if_neg hv, if_neg (fun h' => hv ((C48_threshold _ _).1 h'))]; exact Pair.ret _ _
  · rw [hxa, g1, g3]
    simp only [List.map_append, List.map_cons, List.map_map, xAcc, BitVec.toNat_ofNat, Nat.mod_eq_of_lt hcard]
    congr 1
    · congr 1
      refine List.map_congr_left fun i hi => ?_
      simp only [Function.comp_apply, hSn, zero_add]
      simp only [hS]
      rw [Finset.sum_congr rfl fun k hk => (hv k hk).1 i (List.mem_range.1 hi)]
    · refine List.map_congr_left fun i hi => ?_
      simp only [Function.comp_apply, hSn]
      simp only [hS]
      rw [Finset.sum_congr rfl fun k hk => (hv k hk).2.2.1 i (List.mem_range.1 hi)]
  · rw [hya, g2, g4]
    simp only [List.map_map, yAcc, List.range_one, List.map_cons, List.map_nil, List.singleton_append]
    congr 1
    · simp only [hSn, Nat.add_zero]
      simp only [hS]
      rw [Finset.sum_congr rfl fun k hk => (hv k hk).2.1]
    · refine List.map_congr_left fun i hi => ?_
      simp only [Function.comp_apply, hSn]
      simp only [hS]
      rw [Finset.sum_congr rfl fun k hk => (hv k hk).2.2.2 i]

/-- C42, for all submissions, honest or not, all randomness, uninitialised memory, iteration orders and schedules: server 0 solves
the system whose accumulators are the count and the sums modulo `p` of the submitted values over exactly the counted keys, each in
its slot; server 1 answers nothing; no array is overrun. -/
theorem C42_linreg_op {d : ℕ} (hd : 1 ≤ d) (hsm : linMul d < 2 ^ 18) {nbits : ℕ} (hb : nbits ≤ 24) {total0 total1 : ℕ} (ht0 : total0 < 2 ^ 64)
    (ht : total1 < 2 ^ 32) {s0 s1 : Bytes}
    {subs0 subs1 : List (Bytes × LinRow)} (h0 : LinStream d total0 s0 subs0) (h1 : LinStream d total1 s1 subs1)
    (hne : ∃ e ∈ subs1, linFits nbits e.2 = true) {x : ℤ} {uses pos : ℕ} {st0 st1 : SnipState} (hs0 : SnipOk x uses pos st0)
    (hs1 : SnipOk x uses pos st1) (coef : ℕ → ℤ) (raw0 raw1 : ℕ → ℕ → ℕ → U64) (u : ℕ → ℕ → U64) (ord : Map LinRow → Map LinRow)
    (ho : IsOrder ord) {c : Circuit} (hc : checkLinReg intModulus d = some c) :
    ∃ st0' st1' xa ya r, let o := (ord (admit (linFits nbits) subs1 [])).keys
      let G := linCounted c x coef pos nbits subs0 subs1 o
      Always (linOp0 nbits total0 s0 coef raw0 u st0) (linOp1 nbits total1 s1 coef raw1 st1 ord)
        (verdict G.card total0 r, st0') (.noAns, st1') ∧ solveLinReg d xa ya = some r ∧
      xa.map (·.toNat) = xAcc d G (linAt nbits subs0 subs1) ∧ ya.map (·.toNat) = yAcc d G (linAt nbits subs0 subs1) ∧
      SnipOk x (uses + o.length) (pos + o.length * (linMul d + 1)) st0' ∧ SnipOk x (uses + o.length) (pos + o.length * (linMul d + 1)) st1' := by
  obtain ⟨st0', st1', xa, ya, r, h, q⟩ := lin_pair hd hsm hb ht0 ht h0 h1 hne hs0 hs1 coef raw0 raw1 u ord ho hc
  exact ⟨st0', st1', xa, ya, r, h.always, q⟩

end Verif

import Verif.LemmasViewDa

/-! # What the servers see during FREQ -/

namespace Verif

/-! ### Programs that leave bytes unread -/

/-- Both programs end with the given records and the bytes `q` from server 0 to server 1 unread. -/
def PairLeftW {α β : Type} (P0 : Proc α) (P1 : Proc β) (a : α) (b : β) (v0 v1 : List Seen) (q : Bytes) : Prop :=
  PairLeft P0.watch P1.watch (a, v0) (b, v1) q

theorem PairW.left {α β : Type} {P0 : Proc α} {P1 : Proc β} {a : α} {b : β} {v0 v1 : List Seen} (h : PairW P0 P1 a b v0 v1) :
    PairLeftW P0 P1 a b v0 v1 [] := h

theorem PairW.bindLeft {α β α' β' : Type} {P0 : Proc α} {P1 : Proc β} {a : α} {b : β} {v0 v1 w0 w1 : List Seen} {Q0 : α → Proc α'} {Q1 : β → Proc β'}
    {c : α'} {d : β'} {q : Bytes} (h : PairW P0 P1 a b v0 v1) (h' : PairLeftW (Q0 a) (Q1 b) c d w0 w1 q) :
    PairLeftW (P0.bind Q0) (P1.bind Q1) c d (v0 ++ w0) (v1 ++ w1) q := by
  unfold PairLeftW
  rw [Proc.watch_bind, Proc.watch_bind]
  refine Pair.bindLeft h ?_
  intro γ δ k0 k1
  rw [Proc.bind_assoc, Proc.bind_assoc]
  exact h' _ _ (fun s => (Proc.ret (s.1, v0 ++ s.2)).bind k0) (fun s => (Proc.ret (s.1, v1 ++ s.2)).bind k1)

theorem PairLeftW.cast {α β : Type} {P0 : Proc α} {P1 : Proc β} {a a' : α} {b b' : β} {v0 v1 w0 w1 : List Seen} {q q' : Bytes}
    (h : PairLeftW P0 P1 a b v0 v1 q) (ea : a = a') (eb : b = b') (e0 : v0 = w0) (e1 : v1 = w1) (eq : q = q') :
    PairLeftW P0 P1 a' b' w0 w1 q' := by subst ea eb e0 e1 eq; exact h

/-- Both send and server 0 alone reads. -/
theorem left_tail {α β γ : Type} {r : Rd γ} {bs0 bs1 : Bytes} {x : γ} (h : Reads r bs1 x) (f : γ → α) (z : β) :
    PairLeftW ((Proc.put bs0).bind fun _ => r.toProc.bind fun y => .ret (f y)) ((Proc.put bs1).bind fun _ => .ret z) (f x) z (seenBytes bs1) [] bs0 := by
  intro γ' δ k0 k1
  refine .head (.send0 ..) (.head (.send1 ..) ?_)
  show Steps ⟨(r.toProc.bind fun y => .ret (f y)).watch.bind k0, k1 (z, []), [] ++ bs0, [] ++ bs1⟩ _
  rw [Proc.watch_bind, Proc.bind_assoc]
  obtain ⟨used, e, hs⟩ := steps_watch r bs1 [] x h.run_eq (fun r => ((Proc.ret (f r.1)).watch.bind fun s => .ret (s.1, r.2 ++ s.2)).bind k0) (k1 (z, []))
    ([] ++ bs0)
  rw [List.append_nil] at e
  subst e
  refine hs.trans ?_
  show Steps ⟨k0 (f x, seenBytes bs1 ++ []), _, _, _⟩ _
  rw [List.append_nil]
  exact .refl _

theorem keysInto_pairW (cap : ℕ) : ∀ (ks : List Bytes) (i : ℕ), (∀ k ∈ ks, k.length = pkLength) → i + ks.length ≤ cap →
    PairW (recvKeysInto cap i ks.length) (sendKeys ks) ks () (seenKeys ks) []
  | [], i, _, _ => PairW.ret _ _
  | k :: ks, i, h, hc => by
    rw [List.length_cons, recvKeysInto, sendKeys]
    rw [List.length_cons] at hc
    refine ((PairW.send10 (Reads.getRet (k := id) (h k (List.mem_cons_self ..)))).bind (w0 := seenKeys ks) (w1 := []) ?_).cast rfl rfl ?_ rfl
    · rw [if_pos (by omega)]
      exact PairW.bindL (f := fun ks => k :: ks) (keysInto_pairW cap ks (i + 1) (fun k hk => h k (List.mem_cons_of_mem _ hk)) (by omega))
    · unfold seenKeys; rw [List.flatMap_cons]

theorem listenInto_pairW (cap : ℕ) (ks : List Bytes) (h : ∀ k ∈ ks, k.length = pkLength) (hl : ks.length < 2 ^ 32) (hc : ks.length ≤ cap) :
    PairW (rdSize.toProc.bind fun n => recvKeysInto cap 0 n.toNat) (announce ks) ks ()
      (seenBytes (encSize (BitVec.ofNat 64 ks.length)) ++ seenKeys ks) [] := by
  unfold announce
  refine (PairW.send10 (reads_size _)).bind (w1 := []) ?_
  have e : (BitVec.ofNat 64 ((BitVec.ofNat 64 ks.length : U64).toNat % 2 ^ 32) : U64).toNat = ks.length := by
    rw [BitVec.toNat_ofNat, BitVec.toNat_ofNat]
    omega
  rw [e]
  exact keysInto_pairW cap ks 0 h (by omega)

/-! ### The conversion -/

/-- The converted rows add up to the bits. -/
structure FreqRowsOk (w n : ℕ) (A B : List (List Bool)) (r0 r1 : List ℤ) : Prop where
  c0 : ∀ a ∈ r0, Canon a intModulus
  c1 : ∀ a ∈ r1, Canon a intModulus
  l0 : r0.length = n * w
  l1 : r1.length = n * w
  sum : ∀ i < n, ∀ j < w, (at0 ((pieces w n r0).getD i []) j : ZMod intModulus) + at0 ((pieces w n r1).getD i []) j =
        if (List.zipWith (fun a b => a ^^ b) (A.getD i []) (B.getD i [])).getD j false then 1 else 0

theorem freqConvert_pairW {c : StoreCfg} {g0 : StoreRng} (g1 : StoreRng) (hg : GoodRng intModulus g0) {w : ℕ} {A B : List (List Bool)}
    (hl : A.length = B.length) (hA : ∀ r ∈ A, r.length = w) (hB : ∀ r ∈ B, r.length = w) (hs : A.length * w < 2 ^ 32)
    {s0 s1 : Store} (h : StoresOk intModulus s0 s1) {T0 T1 : List DaBit} (hT0 : T0 = stock0 intModulus c g0 s0 (A.length * w))
    (hT1 : T1 = stock1 intModulus c g0 g1 s0 s1 (A.length * w)) :
    (∃ s0' s1', PairW (freqConvert c g0 false A s0) (freqConvert c g1 true B s1) (converted0 intModulus T0 T1 A.flatten B.flatten, s0')
      (converted1 intModulus T0 T1 A.flatten B.flatten, s1') (seenBytes (encBools (veil T1 B.flatten)))
      (stockSeen intModulus c g0 g1 s0 s1 (A.length * w) ++ seenBytes (encBools (veil T0 A.flatten)))) ∧
    FreqRowsOk w A.length A B (converted0 intModulus T0 T1 A.flatten B.flatten) (converted1 intModulus T0 T1 A.flatten B.flatten) := by
  have lA := length_flatten_const A w hA
  have lB := length_flatten_const B w hB
  rw [← lA] at hT0 hT1
  obtain ⟨s0', s1', hW⟩ := b2aSingle_pairW goodModulus c g1 hg (x0 := A.flatten) (x1 := B.flatten) (by rw [lA, lB, hl]) h hT0 hT1
  obtain ⟨r0, r1, t0, t1, hP, c0, c1, l0, l1, hc, -⟩ := freqConvert_pair (c := c) (g0 := g0) (g1 := g1) hg hl hA hB hs h
  have hW' : PairW (freqConvert c g0 false A s0) (freqConvert c g1 true B s1) (converted0 intModulus T0 T1 A.flatten B.flatten, s0')
      (converted1 intModulus T0 T1 A.flatten B.flatten, s1') (seenBytes (encBools (veil T1 B.flatten)))
      (stockSeen intModulus c g0 g1 s0 s1 A.flatten.length ++ seenBytes (encBools (veil T0 A.flatten))) := by
    unfold freqConvert
    rw [if_pos (by rw [lA]; exact hs), if_pos (by rw [lB, ← hl]; exact hs)]
    exact hW
  obtain ⟨e0, e1⟩ := hP.always.unique hW'.toPair.always
  obtain ⟨rfl, rfl⟩ := Prod.mk.inj e0
  obtain ⟨rfl, rfl⟩ := Prod.mk.inj e1
  rw [lA] at hW'
  exact ⟨⟨_, _, hW'⟩, ⟨c0, c1, l0, l1, hc⟩⟩

/-! ### The checks -/

section
variable {w : ℕ} {ks : List Bytes} {a b v : Bytes → List Bool} {r0 r1 : List ℤ} (hvab : ∀ k, v k = List.zipWith (fun a b => a ^^ b) (a k) (b k))
  (la : ∀ k, (a k).length = w) (lb : ∀ k, (b k).length = w) (hR : FreqRowsOk w ks.length (ks.map a) (ks.map b) r0 r1)
include hvab la lb hR

omit la lb in
theorem row_bits : ∀ i < ks.length, ∀ j < w, (at0 ((pieces w ks.length r0).getD i []) j : ZMod intModulus) + at0 ((pieces w ks.length r1).getD i []) j =
      if (v (ks.getD i [])).getD j false then 1 else 0 := by
  intro i hi j hj
  rw [hR.sum i hi j hj, hvab]
  simp [List.getD_eq_getElem?_getD, List.getElem?_eq_getElem hi]

theorem row_sums : ∀ i < ks.length, (at0 ((pieces w ks.length r0).map modSum) i : ZMod intModulus) + at0 ((pieces w ks.length r1).map modSum) i =
    weight (v (ks.getD i [])) := by
  have hc' := row_bits hvab hR
  obtain ⟨-, -, l0, l1, -⟩ := hR
  have lv : ∀ k, (v k).length = w := fun k => by rw [hvab]; simp [la, lb]
  set R0 := pieces w ks.length r0 with hR0
  set R1 := pieces w ks.length r1 with hR1
  have lR0 : R0.length = ks.length := pieces_length ..
  have lR1 : R1.length = ks.length := pieces_length ..
  have mR0 : ∀ q ∈ R0, q.length = w := pieces_mem w _ r0 l0
  have mR1 : ∀ q ∈ R1, q.length = w := pieces_mem w _ r1 l1
  intro i hi
  have e0 : at0 (R0.map modSum) i = modSum (R0.getD i []) := by
    simp [at0, List.getD_eq_getElem?_getD, List.getElem?_eq_getElem (show i < R0.length by omega)]
  have e1 : at0 (R1.map modSum) i = modSum (R1.getD i []) := by
    simp [at0, List.getD_eq_getElem?_getD, List.getElem?_eq_getElem (show i < R1.length by omega)]
  have w0 : (R0.getD i []).length = w := by
    rw [List.getD_eq_getElem?_getD, List.getElem?_eq_getElem (show i < R0.length by omega)]; exact mR0 _ (List.getElem_mem _)
  have w1 : (R1.getD i []).length = w := by
    rw [List.getD_eq_getElem?_getD, List.getElem?_eq_getElem (show i < R1.length by omega)]; exact mR1 _ (List.getElem_mem _)
  rw [e0, e1, modSum_cast, modSum_cast, sum_at0, sum_at0, w0, w1, ← Finset.sum_add_distrib, weight_sum, lv]
  exact Finset.sum_congr rfl fun j hj => hc' i hi j (Finset.mem_range.1 hj)

theorem total_sum : (modSum ((pieces w ks.length r0).map modSum) : ZMod intModulus) + modSum ((pieces w ks.length r1).map modSum) =
    ((ks.map fun k => weight (v k)).sum : ℕ) := by
  have hrow := row_sums hvab la lb hR
  rw [modSum_cast, modSum_cast, sum_at0, sum_at0, List.length_map, List.length_map, pieces_length, pieces_length, ← Finset.sum_add_distrib,
    sum_range_list ks (fun _ k => ((weight (v k) : ℕ) : ZMod intModulus)) _ (fun i k hk => by
      have hi : i < ks.length := (List.getElem?_eq_some_iff.1 hk).1
      rw [hrow i hi, List.getD_eq_getElem?_getD, hk, Option.getD_some])]
  have hmi : (ks.mapIdx fun _ k => ((weight (v k) : ℕ) : ZMod intModulus)) = ks.map fun k => ((weight (v k) : ℕ) : ZMod intModulus) := by
    apply List.ext_getElem <;> simp
  rw [hmi, Nat.cast_list_sum, List.map_map]; rfl

omit hR in
theorem row_parity (k : Bytes) : (parityOf (a k) ^^ parityOf (b k)) = decide (weight (v k) % 2 = 1) := by
  rw [parityOf_xor ((la k).trans (lb k).symm), ← hvab, parityOf_eq]

omit hR in
theorem total_parity : (parityOf ((ks.map a).map parityOf) ^^ parityOf ((ks.map b).map parityOf)) =
    decide ((ks.map fun k => weight (v k)).sum % 2 = 1) := by
  rw [parityOf_xor (by simp)]
  have : List.zipWith (fun a b => a ^^ b) ((ks.map a).map parityOf) ((ks.map b).map parityOf) = (ks.map v).map parityOf := by
    rw [List.map_map, List.map_map, List.map_map, List.zipWith_map, List.zipWith_self]
    refine List.map_congr_left fun k _ => ?_
    simp only [Function.comp_apply]
    rw [parityOf_xor ((la k).trans (lb k).symm), hvab]
  rw [this, parityOf_rows, List.map_map]; rfl

theorem checks_eq {total : ℕ} (ht : total < 2 ^ 32) (hsz : ks.length * w < 2 ^ 32) (m : Map (List Bool)) :
    batchValid total (parityOf ((ks.map a).map parityOf)) (parityOf ((ks.map b).map parityOf)) (modSum ((pieces w ks.length r0).map modSum))
      (modSum ((pieces w ks.length r1).map modSum)) = decide ((ks.map fun k => weight (v k)).sum = total) ∧
    freqValid (matched m ks) ((ks.map a).map parityOf) ((ks.map b).map parityOf) ((pieces w ks.length r0).map modSum)
      ((pieces w ks.length r1).map modSum) = ks.map fun k => (List.lookup k m).isSome && decide (weight (v k) = 1) := by
  have hp32 : (2 : ℕ) ^ 32 < intModulus := by decide
  have lv : ∀ k, (v k).length = w := fun k => by rw [hvab]; simp [la, lb]
  have hWle : (ks.map fun k => weight (v k)).sum ≤ ks.length * w := by
    refine (List.sum_le_card_nsmul _ w ?_).trans (by simp)
    intro x hx
    obtain ⟨k, -, rfl⟩ := List.mem_map.1 hx
    exact (weight_le _).trans (lv k).le
  refine ⟨batchValid_eq (by omega) (by omega) (total_parity hvab la lb) (total_sum hvab la lb hR), ?_⟩
  rw [freqValid_eq (n := ks.length) (by simp [matched]) (by simp) (by simp) (by simp [pieces_length]) (by simp [pieces_length])]
  apply List.ext_getElem
  · simp
  · intro i h1 h2
    have hi : i < ks.length := by simpa using h1
    rw [List.getElem_map, List.getElem_range, List.getElem_map]
    have := row_sums hvab la lb hR i hi
    rw [List.getD_eq_getElem?_getD, List.getElem?_eq_getElem hi, Option.getD_some] at this
    rw [freqRowValid_eq (W := weight (v ks[i])) (by
      have h1 := weight_le (v ks[i])
      rw [lv] at h1
      have : w ≤ ks.length * w := Nat.le_mul_of_pos_left w (by omega)
      omega) ?_ this]
    · simp [matched, List.getD_eq_getElem?_getD, List.getElem?_eq_getElem hi]
    · simp only [List.getD_eq_getElem?_getD, List.getElem?_map, List.getElem?_eq_getElem hi, Option.map_some, Option.getD_some]
      exact row_parity hvab la lb _

end

/-! ### The operation -/

/-- The rows that count: all of them if the total weight is the announced count, else those known to server 0 with exactly one set bit. -/
def freqVerdicts (total : ℕ) (m : Map (List Bool)) (ks : List Bytes) (v : Bytes → List Bool) : List Bool :=
  if (ks.map fun k => weight (v k)).sum = total then List.replicate ks.length true else
    ks.map fun k => (List.lookup k m).isSome && decide (weight (v k) = 1)

theorem freqVerdicts_length (total : ℕ) (m : Map (List Bool)) (ks : List Bytes) (v : Bytes → List Bool) : (freqVerdicts total m ks v).length = ks.length := by
  unfold freqVerdicts; split <;> simp

/-- What server 0 sees. -/
def freqSeen0 (w total : ℕ) (m : Map (List Bool)) (ks : List Bytes) (v b : Bytes → List Bool) (vs : List Bool) (R1 : List (List ℤ)) : List Seen :=
  (seenBytes (encSize (BitVec.ofNat 64 ks.length)) ++ seenKeys ks) ++ (seenBytes (encBools vs) ++
    (seenBytes (encBool (parityOf ((ks.map b).map parityOf))) ++ (seenBytes (fmpzBytes (modSum (R1.map modSum))) ++
      ((if (ks.map fun k => weight (v k)).sum = total then [] else
        seenBytes (encBools ((ks.map b).map parityOf)) ++ seenBytes ((R1.map modSum).flatMap fmpzBytes)) ++
        seenBytes ((accumulate w R1 (freqVerdicts total m ks v)).flatMap fmpzBytes)))))

/-- What server 1 sees apart from the conversion, with what it leaves unread. -/
def freqSeen1 (total : ℕ) (m : Map (List Bool)) (ks : List Bytes) (v : Bytes → List Bool) : List Seen :=
  seenBytes (encBool (decide ((ks.map fun k => weight (v k)).sum = total))) ++ seenBytes (encBools (freqVerdicts total m ks v))

theorem freq_view (c : StoreCfg) {g0 : StoreRng} (g1 : StoreRng) (hg : GoodRng intModulus g0) {w total : ℕ} (ht : total < 2 ^ 32)
    {m : Map (List Bool)} {ord : Map (List Bool)} (hk : ∀ k ∈ ord.keys, k.length = pkLength) {a b v : Bytes → List Bool}
    (hvab : ∀ k, v k = List.zipWith (fun a b => a ^^ b) (a k) (b k)) (la : ∀ k, (a k).length = w) (lb : ∀ k, (b k).length = w)
    (hA : ord.keys.map (freqRow0 w m) = ord.keys.map a) (hB : ord.map (·.2) = ord.keys.map b)
    (hcap : ord.keys.length ≤ total) (hsz : ord.keys.length * w < 2 ^ 32) {s0 s1 : Store} (hst : StoresOk intModulus s0 s1)
    {T0 T1 : List DaBit} (hT0 : T0 = stock0 intModulus c g0 s0 (ord.keys.length * w)) (hT1 : T1 = stock1 intModulus c g0 g1 s0 s1 (ord.keys.length * w)) :
    FreqRowsOk w ord.keys.length (ord.keys.map a) (ord.keys.map b) (converted0 intModulus T0 T1 (ord.keys.map a).flatten (ord.keys.map b).flatten)
      (converted1 intModulus T0 T1 (ord.keys.map a).flatten (ord.keys.map b).flatten) ∧
    ∃ r0 r1 u q, PairLeftW (freq0 c g0 w total m s0) (freq1 c g1 w ord s1) r0 r1
      (freqSeen0 w total m ord.keys v b (veil T1 (ord.keys.map b).flatten)
        (pieces w ord.keys.length (converted1 intModulus T0 T1 (ord.keys.map a).flatten (ord.keys.map b).flatten))) u q ∧
      u ++ seenBytes q = (stockSeen intModulus c g0 g1 s0 s1 (ord.keys.length * w) ++ seenBytes (encBools (veil T0 (ord.keys.map a).flatten))) ++
        freqSeen1 total m ord.keys v := by
  have hol : ord.length = ord.keys.length := by simp [Map.keys]
  have hkk : ord.map (·.1) = ord.keys := rfl
  have hBp : (ord.map fun e => parityOf e.2) = (ord.keys.map b).map parityOf := by rw [← hB, List.map_map]; rfl
  generalize ord.keys = ks at *
  obtain ⟨⟨s0', s1', hP⟩, hR⟩ := freqConvert_pairW (c := c) g1 hg (w := w) (A := ks.map a) (B := ks.map b) (by simp)
    (by simp [la]) (by simp [lb]) (by simpa using hsz) hst (by simpa using hT0) (by simpa using hT1)
  rw [List.length_map] at hP hR
  refine ⟨hR, ?_⟩
  obtain ⟨hbv, hiv⟩ := checks_eq hvab la lb hR ht hsz m
  obtain ⟨-, -, l0, l1, -⟩ := hR
  set r1 := converted1 intModulus T0 T1 (ks.map a).flatten (ks.map b).flatten
  set r0 := converted0 intModulus T0 T1 (ks.map a).flatten (ks.map b).flatten
  set R0 := pieces w ks.length r0 with hR0
  set R1 := pieces w ks.length r1 with hR1
  have lR1 : R1.length = ks.length := pieces_length ..
  have mR1 : ∀ q ∈ R1, q.length = w := pieces_mem w _ r1 l1
  have hfits : ∀ x ∈ R1.map modSum, Fits x := by
    intro x hx
    obtain ⟨q, -, rfl⟩ := List.mem_map.1 hx
    exact fits_canon (modSum_canon q)
  have hacc : ∀ (V : List Bool), ks.length = V.length → (accumulate w R1 V).length = w ∧ ∀ x ∈ accumulate w R1 V, Fits x := by
    intro V h1
    obtain ⟨q1, q2, -⟩ := accumulate_spec (ni := w) R1 V (lR1.trans h1) mR1
    exact ⟨q1, fun x hx => fits_canon (q2 x hx)⟩
  have hL := listenInto_pairW total ks hk (by omega) hcap
  have hV : freqVerdicts total m ks v = if (ks.map fun k => weight (v k)).sum = total then List.replicate ks.length true else
      ks.map fun k => (List.lookup k m).isSome && decide (weight (v k) = 1) := rfl
  unfold freqSeen0 freqSeen1
  by_cases hW : (ks.map fun k => weight (v k)).sum = total
  · rw [decide_eq_true hW] at hbv
    rw [if_pos hW] at hV
    rw [hV, decide_eq_true hW, if_pos hW]
    obtain ⟨q1, q2⟩ := hacc (List.replicate ks.length true) (by simp)
    have hr := reads_fmpzs _ q2
    rw [q1] at hr
    refine ⟨?_, ?_, ?_, encBools (List.replicate ks.length true), ?_, ?_⟩
    rotate_left 3
    · unfold freq0 freq1
      rw [← Proc.bind_assoc, hkk]
      refine (hL.bindLeft (w1 := (stockSeen intModulus c g0 g1 s0 s1 (ks.length * w) ++ seenBytes (encBools (veil T0 (ks.map a).flatten))) ++
        (seenBytes (encBool true) ++ [])) ?_)
      rw [hA, hB]
      refine hP.bindLeft ?_
      simp only [hBp, hol]
      refine ((PairW.send10 (reads_bool _)).bindLeft (w1 := seenBytes (encBool true) ++ []) ?_)
      rw [encFmpz_of_fits (fits_canon (modSum_canon _))]
      refine ((PairW.send10 (reads_fmpz (fits_canon (modSum_canon _)))).bindLeft (w1 := seenBytes (encBool true) ++ []) ?_)
      rw [← hR0, ← hR1, hbv]
      refine ((PairW.send01 (reads_bool true)).bindLeft (w1 := []) ?_)
      simp only [if_true]
      rw [Proc.ret_bind', Proc.ret_bind']
      rw [encFmpzs_of_fits _ q2]
      refine left_tail hr _ _
    · simp
  · rw [decide_eq_false hW] at hbv
    rw [if_neg hW] at hV
    rw [decide_eq_false hW, if_neg hW]
    have lV := freqVerdicts_length total m ks v
    rw [hV] at lV
    have rp := reads_bools ((ks.map b).map parityOf)
    rw [List.length_map, List.length_map] at rp
    have rs := reads_fmpzs _ hfits
    rw [List.length_map, lR1] at rs
    obtain ⟨q1, q2⟩ := hacc _ lV.symm
    have hr := reads_fmpzs _ q2
    rw [q1] at hr
    have rv := reads_bools (ks.map fun k => (List.lookup k m).isSome && decide (weight (v k) = 1))
    rw [lV] at rv
    rw [hV, List.append_assoc (seenBytes (encBools ((ks.map b).map parityOf)))]
    refine ⟨?_, ?_, (stockSeen intModulus c g0 g1 s0 s1 (ks.length * w) ++ seenBytes (encBools (veil T0 (ks.map a).flatten))) ++
        (seenBytes (encBool false) ++ (seenBytes (encBools (ks.map fun k => (List.lookup k m).isSome && decide (weight (v k) = 1))) ++ [])), [], ?_, ?_⟩
    rotate_left 2
    on_goal 2 => simp [seenBytes]
    · refine PairW.left ?_
      unfold freq0 freq1
      rw [← Proc.bind_assoc, hkk]
      refine hL.bind (v1 := []) ?_
      rw [hA, hB]
      refine hP.bind ?_
      simp only [hBp, hol]
      refine (PairW.send10 (reads_bool _)).bind (v1 := []) ?_
      rw [encFmpz_of_fits (fits_canon (modSum_canon _))]
      refine (PairW.send10 (reads_fmpz (fits_canon (modSum_canon _)))).bind (v1 := []) ?_
      rw [← hR0, ← hR1, hbv]
      refine (PairW.send01 (reads_bool false)).bind (v0 := []) ?_
      simp only [Bool.false_eq_true, if_false]
      rw [encFmpzs_of_fits _ hfits, Proc.bind_assoc]
      rw [Proc.bind_assoc]
      refine (PairW.send10 rp).bind (v1 := []) ?_
      rw [Proc.bind_assoc, Proc.bind_assoc]
      refine (PairW.send10 rs).bind (v1 := []) ?_
      rw [hiv]
      show PairW ((Proc.put (encBools _)).bind _) _ _ _ _ _
      refine (PairW.send01 rv).bind (v0 := []) ?_
      rw [encFmpzs_of_fits _ q2]
      exact PairW.map _ _ (PairW.send10 hr)

end Verif

import Verif.ModelFreq
import Verif.PropsVar

/-! # Lemmas about `freq_op` -/

namespace Verif

/-! ### Parities and sums -/

/-- The number of set bits. -/
def weight (v : List Bool) : ℕ := v.count true

theorem parity_aux (bs : List Bool) (a : Bool) : bs.foldl (fun a b => a ^^ b) a = (a ^^ decide (weight bs % 2 = 1)) := by
  induction bs generalizing a with
  | nil => simp [weight]
  | cons b bs ih =>
    rw [List.foldl_cons, ih]
    unfold weight
    cases b
    · simp
    · rw [List.count_cons_self]
      rcases Nat.mod_two_eq_zero_or_one (bs.count true) with h | h
      · have : (bs.count true + 1) % 2 = 1 := by omega
        simp [h, this]
      · have : (bs.count true + 1) % 2 = 0 := by omega
        simp [h, this]

theorem parityOf_eq (bs : List Bool) : parityOf bs = decide (weight bs % 2 = 1) := by
  rw [parityOf, parity_aux]; simp

theorem parityOf_cons (b : Bool) (bs : List Bool) : parityOf (b :: bs) = (b ^^ parityOf bs) := by
  rw [parityOf_eq bs, parityOf, List.foldl_cons, parity_aux]; simp

theorem parityOf_xor : ∀ {A B : List Bool}, A.length = B.length →
    (parityOf A ^^ parityOf B) = parityOf (List.zipWith (fun a b => a ^^ b) A B)
  | [], [], _ => rfl
  | [], _ :: _, h => by simp at h
  | _ :: _, [], h => by simp at h
  | a :: A, b :: B, h => by
    rw [List.zipWith_cons_cons, parityOf_cons, parityOf_cons, parityOf_cons, ← parityOf_xor (by simpa using h)]
    cases a <;> cases b <;> cases parityOf A <;> cases parityOf B <;> rfl

theorem parityOf_rows (L : List (List Bool)) : parityOf (L.map parityOf) = decide ((L.map weight).sum % 2 = 1) := by
  induction L with
  | nil => rfl
  | cons v L ih =>
    rw [List.map_cons, parityOf_cons, ih, parityOf_eq, List.map_cons, List.sum_cons, Nat.add_mod]
    rcases Nat.mod_two_eq_zero_or_one (weight v) with h | h <;> rcases Nat.mod_two_eq_zero_or_one (L.map weight).sum with h' | h' <;>
      simp [h, h']

theorem modSum_aux (xs : List ℤ) (a : ℤ) (ha : Canon a intModulus) :
    Canon (xs.foldl (fun s x => fmod (s + x) intModulus) a) intModulus ∧
    ((xs.foldl (fun s x => fmod (s + x) intModulus) a : ℤ) : ZMod intModulus) = a + (xs.map fun x : ℤ => (x : ZMod intModulus)).sum := by
  induction xs generalizing a with
  | nil => exact ⟨ha, by simp⟩
  | cons x xs ih =>
    obtain ⟨h1, h2⟩ := ih (fmod (a + x) intModulus) (fmod_canon _)
    rw [List.foldl_cons]
    refine ⟨h1, ?_⟩
    rw [h2]; simp; ring

theorem modSum_canon (xs : List ℤ) : Canon (modSum xs) intModulus := (modSum_aux xs 0 (by simp only [Canon]; decide)).1

theorem modSum_cast (xs : List ℤ) : (modSum xs : ZMod intModulus) = (xs.map fun x : ℤ => (x : ZMod intModulus)).sum := by
  have := (modSum_aux xs 0 (by simp only [Canon]; decide)).2
  rw [Int.cast_zero, zero_add] at this
  exact this

theorem weight_le (v : List Bool) : weight v ≤ v.length := List.count_le_length

theorem weight_sum {R : Type} [CommRing R] (v : List Bool) : ((weight v : ℕ) : R) = ∑ j ∈ Finset.range v.length, if v.getD j false then 1 else 0 := by
  induction v with
  | nil => simp [weight]
  | cons b v ih =>
    rw [List.length_cons, Finset.sum_range_succ']
    simp only [List.getD_cons_succ, List.getD_cons_zero]
    rw [← ih]
    unfold weight
    cases b <;> simp

theorem sum_at0 (l : List ℤ) : (l.map fun x : ℤ => (x : ZMod intModulus)).sum = ∑ j ∈ Finset.range l.length, (at0 l j : ZMod intModulus) := by
  rw [sum_range_list l (fun _ a => (a : ZMod intModulus)) _ (fun i a h => by simp [at0, List.getD_eq_getElem?_getD, h])]
  congr 1
  apply List.ext_getElem <;> simp

/-! ### The two checks -/

theorem natCast_inj_lt {a b : ℕ} (ha : a < intModulus) (hb : b < intModulus) (h : (a : ZMod intModulus) = b) : a = b := by
  rw [ZMod.natCast_eq_natCast_iff] at h
  exact Nat.ModEq.eq_of_lt_of_lt h ha hb

theorem fmod_eq_nat {x : ℤ} {n k : ℕ} (hn : n < intModulus) (hk : k < intModulus) (h : (x : ZMod intModulus) = n) :
    fmod x intModulus = k ↔ n = k := by
  constructor
  · intro e
    refine natCast_inj_lt hn hk ?_
    rw [← h, ← fmod_cast x, e]; simp
  · rintro rfl
    refine canon_eq_of_cast (fmod_canon _) ⟨by positivity, by exact_mod_cast hn⟩ ?_
    rw [fmod_cast, h]; simp

theorem batchValid_eq {total W : ℕ} (ht : total < intModulus) (hW : W < intModulus) {a b : Bool} {s t : ℤ}
    (hp : (a ^^ b) = decide (W % 2 = 1)) (hs : (s : ZMod intModulus) + t = W) : batchValid total a b s t = decide (W = total) := by
  unfold batchValid
  have e : decide (fmod (s + t) intModulus = (total : ℤ)) = decide (W = total) :=
    decide_eq_decide.2 (fmod_eq_nat hW ht (by push_cast; exact hs))
  rw [e, hp]
  by_cases h : W = total
  · subst h; simp
  · simp [h]

theorem freqRowValid_eq {W : ℕ} (hW : W < intModulus) {v a b : Bool} {s t : ℤ}
    (hp : (a ^^ b) = decide (W % 2 = 1)) (hs : (s : ZMod intModulus) + t = W) : freqRowValid v a b s t = (v && decide (W = 1)) := by
  unfold freqRowValid
  have e : decide (fmod (s + t) intModulus = 1) = decide (W = 1) :=
    decide_eq_decide.2 (by have := fmod_eq_nat (k := 1) hW (by decide) (x := s + t) (by push_cast; exact hs); simpa using this)
  rw [e, hp]
  by_cases h : W = 1
  · subst h; simp
  · simp [h]

theorem freqValid_eq : ∀ {n : ℕ} {vs as bs : List Bool} {ss ts : List ℤ}, vs.length = n → as.length = n → bs.length = n → ss.length = n →
    ts.length = n → freqValid vs as bs ss ts =
      (List.range n).map fun i => freqRowValid (vs.getD i false) (as.getD i false) (bs.getD i false) (at0 ss i) (at0 ts i)
  | 0, [], [], [], [], [], _, _, _, _, _ => rfl
  | n + 1, v :: vs, a :: as, b :: bs, s :: ss, t :: ts, h1, h2, h3, h4, h5 => by
    rw [freqValid, List.range_succ_eq_map, List.map_cons, List.map_map,
      freqValid_eq (n := n) (by simpa using h1) (by simpa using h2) (by simpa using h3) (by simpa using h4) (by simpa using h5)]
    rfl

/-! ### Protocol pieces -/

theorem keysInto_pair (cap : ℕ) : ∀ (ks : List Bytes) (i : ℕ), (∀ k ∈ ks, k.length = pkLength) → i + ks.length ≤ cap →
    Pair (recvKeysInto cap i ks.length) (sendKeys ks) ks ()
  | [], i, _, _ => Pair.ret _ _
  | k :: ks, i, h, hc => by
    rw [List.length_cons, recvKeysInto, sendKeys]
    refine (Pair.send10 (Reads.getRet (k := id) (h k (List.mem_cons_self ..)))).bind ?_
    rw [List.length_cons] at hc
    rw [if_pos (by omega)]
    exact Pair.bindL (f := fun ks => k :: ks) (keysInto_pair cap ks (i + 1) (fun k hk => h k (List.mem_cons_of_mem _ hk)) (by omega))

theorem listenInto_pair (cap : ℕ) (ks : List Bytes) (h : ∀ k ∈ ks, k.length = pkLength) (hl : ks.length < 2 ^ 32) (hc : ks.length ≤ cap) :
    Pair (rdSize.toProc.bind fun n => recvKeysInto cap 0 n.toNat) (announce ks) ks () := by
  unfold announce
  refine (Pair.send10 (reads_size _)).bind ?_
  have e : (BitVec.ofNat 64 ((BitVec.ofNat 64 ks.length : U64).toNat % 2 ^ 32) : U64).toNat = ks.length := by
    rw [BitVec.toNat_ofNat, BitVec.toNat_ofNat]
    omega
  rw [e]
  exact keysInto_pair cap ks 0 h (by omega)

/-- Started with empty queues, the two programs reach results `a` and `b` with the bytes `q` from server 0 to server 1 unread. -/
def PairLeft {α β : Type} (P0 : Proc α) (P1 : Proc β) (a : α) (b : β) (q : Bytes) : Prop :=
  ∀ (γ δ : Type) (k0 : α → Proc γ) (k1 : β → Proc δ),
    Steps ⟨P0.bind k0, P1.bind k1, [], []⟩ ⟨k0 a, k1 b, q, []⟩

theorem Pair.bindLeft {α β α' β' : Type} {P0 : Proc α} {P1 : Proc β} {a : α} {b : β} {Q0 : α → Proc α'} {Q1 : β → Proc β'}
    {c : α'} {d : β'} {q : Bytes} (h : Pair P0 P1 a b) (h' : PairLeft (Q0 a) (Q1 b) c d q) : PairLeft (P0.bind Q0) (P1.bind Q1) c d q := by
  intro γ δ k0 k1
  rw [Proc.bind_assoc, Proc.bind_assoc]
  exact (h _ _ _ _).trans (h' _ _ _ _)

theorem getD_xor : ∀ {X Y : List Bool} {j : ℕ}, X.length = Y.length →
    (List.zipWith (fun a b => a ^^ b) X Y).getD j false = (X.getD j false ^^ Y.getD j false)
  | [], [], _, _ => rfl
  | [], _ :: _, _, h => by simp at h
  | _ :: _, [], _, h => by simp at h
  | _ :: _, _ :: _, 0, _ => rfl
  | _ :: X, _ :: Y, j + 1, h => by
    rw [List.zipWith_cons_cons, List.getD_cons_succ, List.getD_cons_succ, List.getD_cons_succ]
    exact getD_xor (by simpa using h)

/-- A batch of shared rows is converted row by row. -/
theorem freqConvert_pair {c : StoreCfg} {g0 g1 : StoreRng} (hg : GoodRng intModulus g0) {w : ℕ} {A B : List (List Bool)}
    (hl : A.length = B.length) (hA : ∀ r ∈ A, r.length = w) (hB : ∀ r ∈ B, r.length = w) (hs : A.length * w < 2 ^ 32)
    {s0 s1 : Store} (h : StoresOk intModulus s0 s1) :
    ∃ r0 r1 s0' s1', Pair (freqConvert c g0 false A s0) (freqConvert c g1 true B s1) (r0, s0') (r1, s1') ∧
      (∀ a ∈ r0, Canon a intModulus) ∧ (∀ a ∈ r1, Canon a intModulus) ∧ r0.length = A.length * w ∧ r1.length = A.length * w ∧
      (∀ i < A.length, ∀ j < w, (at0 ((pieces w A.length r0).getD i []) j : ZMod intModulus) + at0 ((pieces w A.length r1).getD i []) j =
        if (List.zipWith (fun a b => a ^^ b) (A.getD i []) (B.getD i [])).getD j false then 1 else 0) ∧
      DaStep intModulus s0 s1 s0' s1' (A.length * w) := by
  have lA := length_flatten_const A w hA
  have lB := length_flatten_const B w hB
  obtain ⟨r0, r1, s0', s1', hP, c0, c1, l0, l1, he, hst⟩ := b2aSingle_pair goodModulus c g0 g1 hg A.flatten B.flatten
    (by rw [lA, lB, hl]) s0 s1 h
  rw [lA] at l0 l1 hst
  refine ⟨r0, r1, s0', s1', ?_, c0, c1, l0, l1, ?_, hst⟩
  · unfold freqConvert
    rw [if_pos (by rw [lA]; exact hs), if_pos (by rw [lB, ← hl]; exact hs)]
    exact hP
  · intro i hi j hj
    have ht : i * w + j < A.length * w := by
      have : (i + 1) * w ≤ A.length * w := Nat.mul_le_mul_right w hi
      rw [add_mul, one_mul] at this; omega
    have := congrArg (fun l : List (ZMod intModulus) => l.getD (i * w + j) 0) he
    simp only [List.getD_eq_getElem?_getD, List.getElem?_zipWith] at this
    have gA := getD_flatten A w hA i j hj hi false
    have gB := getD_flatten B w hB i j hj (by omega) false
    rw [List.getD_eq_getElem?_getD, List.getElem?_eq_getElem (by rw [lA]; exact ht), Option.getD_some] at gA
    rw [List.getD_eq_getElem?_getD, List.getElem?_eq_getElem (by rw [lB, ← hl]; exact ht), Option.getD_some] at gB
    rw [List.getElem?_eq_getElem (by rw [l0]; exact ht), List.getElem?_eq_getElem (by rw [l1]; exact ht),
      List.getElem?_eq_getElem (by rw [lA]; exact ht), List.getElem?_eq_getElem (by rw [lB, ← hl]; exact ht)] at this
    simp only [Option.getD_some] at this
    rw [gA, gB] at this
    simp only [at0]
    rw [getD_pieces w _ r0 i j hi hj, getD_pieces w _ r1 i j hi hj]
    have rA : (A.getD i []).length = w := by
      rw [List.getD_eq_getElem?_getD, List.getElem?_eq_getElem hi]; exact hA _ (List.getElem_mem _)
    have rB : (B.getD i []).length = w := by
      rw [List.getD_eq_getElem?_getD, List.getElem?_eq_getElem (by omega)]; exact hB _ (List.getElem_mem _)
    rw [List.getD_eq_getElem?_getD, List.getElem?_eq_getElem (by rw [l0]; exact ht), List.getD_eq_getElem?_getD,
      List.getElem?_eq_getElem (by rw [l1]; exact ht)]
    simp only [Option.getD_some]
    rw [Int.cast_add] at this
    rw [this]
    rw [getD_xor (rA.trans rB.symm)]

end Verif

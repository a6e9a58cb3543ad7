import Verif.LemmasView
import Verif.PropsMax

/-!
# C63: what the servers learn in BIT_SUM, INT_SUM, AND, OR, MAX and MIN

Each server follows the code and looks at what reaches it. Server 1's view in the two sums is the same for all submissions at server 0 under
the same keys, up to a shift of server 0's masks, which are uniform. Server 0's view is a function of its own input and the aggregate. In AND,
OR, MAX and MIN the aggregate is masked by the clients' random words, and the view depends on the answer only.
-/

namespace Verif

variable {α β : Type}

/-- In every schedule both programs end, and `v` is what server 0 has received. -/
def Sees0 (P0 : Proc α) (P1 : Proc β) (v : List Seen) : Prop := ∃ a b w, Always P0.watch P1.watch (a, v) (b, w)

/-- In every schedule both programs end, and `v` is what server 1 has received. -/
def Sees1 (P0 : Proc α) (P1 : Proc β) (v : List Seen) : Prop := ∃ a b w, Always P0.watch P1.watch (a, w) (b, v)

/-- There is only one such view. -/
theorem Sees0.unique {P0 : Proc α} {P1 : Proc β} {v w : List Seen} (h : Sees0 P0 P1 v) (h' : Sees0 P0 P1 w) : v = w := by
  obtain ⟨a, b, x, h⟩ := h
  obtain ⟨a', b', x', h'⟩ := h'
  exact congrArg Prod.snd (h.unique h').1

theorem Sees1.unique {P0 : Proc α} {P1 : Proc β} {v w : List Seen} (h : Sees1 P0 P1 v) (h' : Sees1 P0 P1 w) : v = w := by
  obtain ⟨a, b, x, h⟩ := h
  obtain ⟨a', b', x', h'⟩ := h'
  exact congrArg Prod.snd (h.unique h').2

theorem PairW.sees0 {P0 : Proc α} {P1 : Proc β} {a : α} {b : β} {v0 v1 : List Seen} (h : PairW P0 P1 a b v0 v1) : Sees0 P0 P1 v0 :=
  ⟨a, b, v1, Pair.always h⟩

theorem PairW.sees1 {P0 : Proc α} {P1 : Proc β} {a : α} {b : β} {v0 v1 : List Seen} (h : PairW P0 P1 a b v0 v1) : Sees1 P0 P1 v1 :=
  ⟨a, b, v0, Pair.always h⟩

/-- Specification: submissions under the same keys. -/
def SameKeys (ok : α → Bool) (subs subs' : List (Bytes × α)) : Prop := ∀ k, (firstOf ok subs k).isSome = (firstOf ok subs' k).isSome

/-- Server 1 sends its aggregate and is done. -/
theorem tail_pairW (f : U64 → Ret α) (b : U64) : PairW (rdU64.toProc.bind fun b => .ret (f b))
    ((Proc.put (encU64 b)).bind fun _ => (.ret .noAns : Proc (Ret α))) (f b) .noAns (seenBytes (encU64 b)) [] :=
  (PairW.bind (Q0 := fun b => .ret (f b)) (Q1 := fun _ => .ret (Ret.noAns : Ret α)) (PairW.send10 (reads_u64 b)) (PairW.ret _ _)).cast rfl rfl
    (List.append_nil _) rfl

/-! ## BIT_SUM -/

theorem bitsum_pairW (ch : Bool) (m : U64) (rows : List BitRow) (ys : List Bool) (hn : rows.length = ys.length) :
    PairW (bitsumSender ch m rows) (bitsumReceiver ch m ys) (rows.foldl (bitAcc m) 0#64)
      ((otChoose (rows.map (bitPair m)) ys).foldl (fun s x => redMod m (s + x)) 0#64) [] (seenWords (otChoose (rows.map (bitPair m)) ys)) :=
  (PairW.bind (Q0 := fun _ => .ret (rows.foldl (bitAcc m) 0#64)) (Q1 := fun r : List U64 => .ret (r.foldl (fun s x => redMod m (s + x)) 0#64))
    (PairW.ot01 ch (rows.map (bitPair m)) ys (by simpa using hn)) (PairW.ret _ _)).cast rfl rfl rfl (List.append_nil _)

theorem bitSum_view (subs0 subs1 : List (Bytes × Bool)) (rest0 rest1 : Bytes) (hk0 : Keyed subs0) (hk1 : Keyed subs1)
    (hlen : subs1.length < 2 ^ 32) (ord : Map Bool → Map Bool) (ho : IsOrder ord) (junk : ℕ → Bool) (raw : ℕ → U64) :
    ∃ r, PairW (bitSumOp0 subs0.length (encBitShares subs0 ++ rest0) junk raw) (bitSumOp1 subs1.length (encBitShares subs1 ++ rest1) ord) r .noAns
      (seenBytes (encSize (BitVec.ofNat 64 (ord (admit (fun _ => true) subs1 [])).keys.length)) ++
        seenKeys (ord (admit (fun _ => true) subs1 [])).keys ++
        seenBytes (encU64 (BitVec.ofNat 64 (bitCount subs0 subs1) -
          (bitRows (admit (fun _ => true) subs0 []) junk raw (ord (admit (fun _ => true) subs1 [])).keys).foldl (bitAcc 0#64) 0#64)))
      (seenWords (otChoose ((bitRows (admit (fun _ => true) subs0 []) junk raw (ord (admit (fun _ => true) subs1 [])).keys).map (bitPair 0#64))
        ((ord (admit (fun _ => true) subs1 [])).map (·.2)))) := by
  unfold bitSumOp0 bitSumOp1
  rw [bitIntake_stream subs0 hk0, bitIntake_stream subs1 hk1]
  show ∃ r, PairW (bitSum0 _ _ _ _) (bitSum1 _) r _ _ _
  have hp := ho (admit (fun _ => true) subs1 [])
  generalize ord (admit (fun _ => true) subs1 []) = o at hp
  unfold bitSum0 bitSum1
  have hol := order_length hp
  have hn : (bitRows (admit (fun _ => true) subs0 []) junk raw o.keys).length = (o.map (·.2)).length := by simp [bitRows_length]
  have hsum := (bit_sum_eq interp0 (bitRows (admit (fun _ => true) subs0 []) junk raw o.keys) (o.map (·.2)) 0#64 0#64 hn trivial trivial
    fun r _ _ => bitOk0 r).2.2
  have e : countDiff (bitRows (admit (fun _ => true) subs0 []) junk raw o.keys) (o.map (·.2)) = bitCount subs0 subs1 := by
    rw [countDiff_order]
    have := sum_order (fun _ => true) subs0 subs1 o hp
      (fun k v => if List.lookup k (admit (fun _ => true) subs0 []) ≠ v then 1 else 0)
    rw [this, bitCount, Finset.card_filter]
    simp only [C34_first_admissible]
  rw [e] at hsum
  have hb : (otChoose ((bitRows (admit (fun _ => true) subs0 []) junk raw o.keys).map (bitPair 0#64)) (o.map (·.2))).foldl
      (fun s x => redMod 0#64 (s + x)) 0#64 = BitVec.ofNat 64 (bitCount subs0 subs1) -
        (bitRows (admit (fun _ => true) subs0 []) junk raw o.keys).foldl (bitAcc 0#64) 0#64 := by
    rw [eq_sub_iff_add_eq, add_comm]
    simpa [interp0] using hsum
  have hpw := bitsum_pairW false 0#64 (bitRows (admit (fun _ => true) subs0 []) junk raw o.keys) (o.map (·.2)) hn
  refine ⟨_, ((listen_pairW o.keys (order_keyed hp hk1) (by simp; omega)).bind (hpw.bind (tail_pairW
    (fun b => finish _ _ (_ + b)) _))).cast rfl rfl ?_ ?_⟩
  · rw [← hb]; simp
  · simp

/-- C63 for BIT_SUM, server 0: with the same keys announced in the same order and the same count, server 0 sees the same, whatever the bits
at server 1 are. The submissions may be those of malicious clients. -/
theorem C63_bit_sum_server0 (subs0 subs1 subs1' : List (Bytes × Bool)) (rest0 rest1 rest1' : Bytes) (hk0 : Keyed subs0) (hk1 : Keyed subs1)
    (hk1' : Keyed subs1') (hlen : subs1.length < 2 ^ 32) (hlen' : subs1'.length < 2 ^ 32) (ord ord' : Map Bool → Map Bool) (ho : IsOrder ord)
    (ho' : IsOrder ord') (junk : ℕ → Bool) (raw : ℕ → U64)
    (hkeys : (ord (admit (fun _ => true) subs1 [])).keys = (ord' (admit (fun _ => true) subs1' [])).keys)
    (hcount : bitCount subs0 subs1 = bitCount subs0 subs1') :
    ∃ v, Sees0 (bitSumOp0 subs0.length (encBitShares subs0 ++ rest0) junk raw) (bitSumOp1 subs1.length (encBitShares subs1 ++ rest1) ord) v ∧
      Sees0 (bitSumOp0 subs0.length (encBitShares subs0 ++ rest0) junk raw) (bitSumOp1 subs1'.length (encBitShares subs1' ++ rest1') ord') v := by
  obtain ⟨r, h⟩ := bitSum_view subs0 subs1 rest0 rest1 hk0 hk1 hlen ord ho junk raw
  obtain ⟨r', h'⟩ := bitSum_view subs0 subs1' rest0 rest1' hk0 hk1' hlen' ord' ho' junk raw
  rw [← hkeys, ← hcount] at h'
  exact ⟨_, h.sees0, h'.sees0⟩

/-- Two clients whose bits at server 1 are swapped: the count is the same, and so is what server 0 sees. -/
example (junk : ℕ → Bool) (raw : ℕ → U64) :
    let k : ℕ → Bytes := fun i => List.replicate pkLength (BitVec.ofNat 8 i)
    ∃ v, Sees0 (bitSumOp0 2 (encBitShares [(k 1, false), (k 2, false)] ++ []) junk raw)
        (bitSumOp1 2 (encBitShares [(k 1, true), (k 2, false)] ++ []) List.reverse) v ∧
      Sees0 (bitSumOp0 2 (encBitShares [(k 1, false), (k 2, false)] ++ []) junk raw)
        (bitSumOp1 2 (encBitShares [(k 1, false), (k 2, true)] ++ []) List.reverse) v := by
  intro k
  have hk : ∀ b b', Keyed [(k 1, (b : Bool)), (k 2, (b' : Bool))] := by
    intro b b' x hx
    simp only [List.mem_cons, List.not_mem_nil, or_false] at hx
    rcases hx with rfl | rfl <;> rfl
  exact C63_bit_sum_server0 [(k 1, false), (k 2, false)] [(k 1, true), (k 2, false)] [(k 1, false), (k 2, true)] [] [] []
    (hk _ _) (hk _ _) (hk _ _) (by decide) (by decide) List.reverse List.reverse (fun m => m.reverse_perm) (fun m => m.reverse_perm) junk raw
    (by decide) (by decide)

theorem seenBytes_encU64_inj {a b : U64} (h : seenBytes (encU64 a) = seenBytes (encU64 b)) : a = b := by
  have h' : encU64 a = encU64 b := List.map_injective_iff.2 (fun _ _ h => Seen.byte.inj h) h
  have e := (reads_u64 a) []
  have e' := (reads_u64 b) []
  rw [h', e'] at e
  exact (congrArg Prod.fst (Option.some.inj e)).symm

/-- C63, what is revealed: with the same keys, a different count is a different view for server 0, whether or not the batch passes the
threshold: server 0 learns the aggregate of a batch it then reports invalid. -/
theorem C63_bit_sum_reveals (subs0 subs1 subs1' : List (Bytes × Bool)) (rest0 rest1 rest1' : Bytes) (hk0 : Keyed subs0) (hk1 : Keyed subs1)
    (hk1' : Keyed subs1') (hlen : subs1.length < 2 ^ 32) (hlen' : subs1'.length < 2 ^ 32) (ord ord' : Map Bool → Map Bool) (ho : IsOrder ord)
    (ho' : IsOrder ord') (junk : ℕ → Bool) (raw : ℕ → U64)
    (hkeys : (ord (admit (fun _ => true) subs1 [])).keys = (ord' (admit (fun _ => true) subs1' [])).keys) (v : List Seen)
    (hv : Sees0 (bitSumOp0 subs0.length (encBitShares subs0 ++ rest0) junk raw) (bitSumOp1 subs1.length (encBitShares subs1 ++ rest1) ord) v)
    (hv' : Sees0 (bitSumOp0 subs0.length (encBitShares subs0 ++ rest0) junk raw)
      (bitSumOp1 subs1'.length (encBitShares subs1' ++ rest1') ord') v) :
    bitCount subs0 subs1 = bitCount subs0 subs1' := by
  obtain ⟨r, h⟩ := bitSum_view subs0 subs1 rest0 rest1 hk0 hk1 hlen ord ho junk raw
  obtain ⟨r', h'⟩ := bitSum_view subs0 subs1' rest0 rest1' hk0 hk1' hlen' ord' ho' junk raw
  rw [← hkeys] at h'
  have e := (h.sees0.unique hv).trans (h'.sees0.unique hv').symm
  have e := sub_left_injective (seenBytes_encU64_inj (List.append_cancel_left e))
  have l : ∀ subs1 : List (Bytes × Bool), subs1.length < 2 ^ 32 → bitCount subs0 subs1 < 2 ^ 64 := by
    intro subs1 hl
    have hsub : bothKeys (fun _ => true) subs0 subs1 ⊆ (subs1.map (·.1)).toFinset := by
      intro k hk
      have h2 := (Finset.mem_filter.1 hk).2.2
      by_contra hno
      rw [firstOf, List.find?_eq_none.2 ?_] at h2
      · simp at h2
      · intro e he hek
        simp only [Bool.and_true, beq_iff_eq] at hek
        exact hno (List.mem_toFinset.2 (hek ▸ List.mem_map_of_mem he))
    have h1 := Finset.card_le_card hsub
    have h2 := List.toFinset_card_le (subs1.map (·.1))
    have h3 : bitCount subs0 subs1 ≤ (bothKeys (fun _ => true) subs0 subs1).card := Finset.card_filter_le _ _
    rw [List.length_map] at h2
    omega
  have := congrArg BitVec.toNat e
  rwa [BitVec.toNat_ofNat, BitVec.toNat_ofNat, Nat.mod_eq_of_lt (l _ hlen), Nat.mod_eq_of_lt (l _ hlen')] at this

theorem bit_choose_shift (m m' : Map Bool) (ord : Map Bool) (h : ∀ e ∈ ord, (m.lookup e.1).isSome = (m'.lookup e.1).isSome) :
    ∃ d : ℕ → U64, ∀ (junk junk' : ℕ → Bool) (raw : ℕ → U64),
      otChoose ((bitRows m junk raw ord.keys).map (bitPair 0#64)) (ord.map (·.2)) =
        otChoose ((bitRows m' junk' (fun i => raw i + d i) ord.keys).map (bitPair 0#64)) (ord.map (·.2)) := by
  induction ord with
  | nil => exact ⟨fun _ => 0, fun _ _ _ => rfl⟩
  | cons e ord ih =>
    obtain ⟨k, y⟩ := e
    obtain ⟨d, hd⟩ := ih fun e he => h e (List.mem_cons_of_mem _ he)
    have h0 := h _ List.mem_cons_self
    refine ⟨fun i => if i = 0 then (if y then 2#64 * b64 ((m'.lookup k).getD false) - 2#64 * b64 ((m.lookup k).getD false) else 0#64) else d (i - 1), ?_⟩
    intro junk junk' raw
    simp only [Map.keys, List.map_cons, bitRows_cons, otChoose_cons]
    have ht := hd (fun i => junk (i + 1)) (fun i => junk' (i + 1)) fun i => raw (i + 1)
    congr 1
    simp only at h0
    rcases hm : m.lookup k with _ | b <;> rcases hm' : m'.lookup k with _ | b' <;> rw [hm, hm'] at h0 <;> simp at h0
    · cases y <;> simp [bitPair]
    · have e0 : (0#64 : U64) = 0 := rfl
      have e1 : (1#64 : U64) = 1 := rfl
      cases y
      · simp [bitPair, redMod]
      · simp only [bitPair, redMod, if_true, Option.getD_some]
        ring

/-- C63 for BIT_SUM, server 1: for submissions under the same keys at server 0 there is a shift of server 0's masks under which server 1 sees
the same. The masks are uniform, so its view has the same distribution for all bits at server 0. -/
theorem C63_bit_sum_server1 (subs0 subs0' subs1 : List (Bytes × Bool)) (rest0 rest0' rest1 : Bytes) (hk0 : Keyed subs0) (hk0' : Keyed subs0')
    (hk1 : Keyed subs1) (hlen : subs1.length < 2 ^ 32) (ord : Map Bool → Map Bool) (ho : IsOrder ord)
    (hkeys : SameKeys (fun _ => true) subs0 subs0') :
    ∃ d : ℕ → U64, ∀ (junk junk' : ℕ → Bool) (raw : ℕ → U64), ∃ v,
      Sees1 (bitSumOp0 subs0.length (encBitShares subs0 ++ rest0) junk raw) (bitSumOp1 subs1.length (encBitShares subs1 ++ rest1) ord) v ∧
      Sees1 (bitSumOp0 subs0'.length (encBitShares subs0' ++ rest0') junk' fun i => raw i + d i)
        (bitSumOp1 subs1.length (encBitShares subs1 ++ rest1) ord) v := by
  obtain ⟨d, hd⟩ := bit_choose_shift (admit (fun _ => true) subs0 []) (admit (fun _ => true) subs0' []) (ord (admit (fun _ => true) subs1 []))
    fun e _ => by rw [C34_first_admissible, C34_first_admissible]; exact hkeys e.1
  refine ⟨d, fun junk junk' raw => ?_⟩
  obtain ⟨r, h⟩ := bitSum_view subs0 subs1 rest0 rest1 hk0 hk1 hlen ord ho junk raw
  obtain ⟨r', h'⟩ := bitSum_view subs0' subs1 rest0' rest1 hk0' hk1 hlen ord ho junk' fun i => raw i + d i
  rw [← hd junk junk' raw] at h'
  exact ⟨_, h.sees1, h'.sees1⟩

/-- The bits of two clients at server 0 are both changed: server 1 sees the same under shifted masks. -/
example :
    let k : ℕ → Bytes := fun i => List.replicate pkLength (BitVec.ofNat 8 i)
    SameKeys (fun _ => true) [(k 1, false), (k 2, false)] [(k 2, true), (k 1, true)] ∧
      ¬ SameKeys (fun _ => true) [(k 1, false), (k 2, false)] [(k 2, true)] := by
  intro k
  refine ⟨fun x => ?_, fun h => absurd (h (k 1)) (by decide)⟩
  by_cases h1 : x = k 1
  · subst h1; decide
  · by_cases h2 : x = k 2
    · subst h2; decide
    · simp [firstOf, List.find?, beq_eq_false_iff_ne.2 (Ne.symm h1), beq_eq_false_iff_ne.2 (Ne.symm h2)]

/-! ## INT_SUM -/

/-- The aggregate of INT_SUM. -/
def intTotal (nbits : ℕ) (subs0 subs1 : List (Bytes × U64)) : ℕ :=
  ∑ k ∈ bothKeys (belowBits nbits) subs0 subs1, (intTerm (belowBits nbits) subs0 subs1 k).toNat

theorem intSum_view (nbits : ℕ) (hb : nbits < 64) (subs0 subs1 : List (Bytes × U64)) (rest0 rest1 : Bytes) (hk0 : Keyed subs0)
    (hk1 : Keyed subs1) (hlen : subs1.length < 2 ^ 32) (ord : Map U64 → Map U64) (ho : IsOrder ord) (junk : ℕ → U64) (raw : ℕ → ℕ → ℕ → U64) :
    ∃ r, PairW (intSumOp0 nbits subs0.length (encIntShares subs0 ++ rest0) junk raw)
      (intSumOp1 nbits subs1.length (encIntShares subs1 ++ rest1) ord) r .noAns
      (seenBytes (encSize (BitVec.ofNat 64 (ord (admit (belowBits nbits) subs1 [])).keys.length)) ++
        seenKeys (ord (admit (belowBits nbits) subs1 [])).keys ++
        seenBytes (encU64 (BitVec.ofNat 64 (intTotal nbits subs0 subs1) -
          sumFirst ((intRows (admit (belowBits nbits) subs0 []) junk raw (ord (admit (belowBits nbits) subs1 [])).keys).map fun r =>
            (senderRow 0#64 [nbits] r).2))))
      (seenWords (otChoose ((intRows (admit (belowBits nbits) subs0 []) junk raw (ord (admit (belowBits nbits) subs1 [])).keys).flatMap fun r =>
        (senderRow 0#64 [nbits] r).1) (((ord (admit (belowBits nbits) subs1 [])).map fun e => [e.2]).flatMap fun y => rowBits y [nbits]))) := by
  have hmain := intSum_pair nbits hb subs0 subs1 rest0 rest1 hk0 hk1 hlen ord ho junk raw
  unfold intSumOp0 intSumOp1
  rw [intIntake_stream nbits hb subs0 hk0, intIntake_stream nbits hb subs1 hk1]
  show ∃ r, PairW (intSum0 _ _ _ _ _) (intSum1 _ _) r _ _ _
  have hp := ho (admit (belowBits nbits) subs1 [])
  generalize ord (admit (belowBits nbits) subs1 []) = o at hp
  unfold intSum0 intSum1
  have hol := order_length hp
  have hn : (intRows (admit (belowBits nbits) subs0 []) junk raw o.keys).length = (o.map fun e => [e.2]).length := by simp [intRows_length]
  have hpw := intsum_pairW 0#64 false (intRows (admit (belowBits nbits) subs0 []) junk raw o.keys) (o.map fun e => [e.2]) [nbits] hn
    (intRows_vals _ _ _ _) (by intro y hy; obtain ⟨e, _, rfl⟩ := List.mem_map.1 hy; rfl) (by simp; omega)
  obtain ⟨A, B, hpair, hab⟩ := C18_pair false (intRows (admit (belowBits nbits) subs0 []) junk raw o.keys)
    (o.map fun e => [e.2]) [nbits] (by simp [intRows_length]) (intRows_vals _ _ _ _)
    (by intro y hy; obtain ⟨e, _, rfl⟩ := List.mem_map.1 hy; rfl) (by simp; omega)
  have hu := (Pair.always hpair).unique (Pair.always (intsum_pair 0#64 false (intRows (admit (belowBits nbits) subs0 []) junk raw o.keys)
    (o.map fun e => [e.2]) [nbits] hn (intRows_vals _ _ _ _) (by intro y hy; obtain ⟨e, _, rfl⟩ := List.mem_map.1 hy; rfl) (by simp; omega)))
  have hsum : sumFirst A + sumFirst B = BitVec.ofNat 64 (intTotal nbits subs0 subs1) := by
    rw [matAgree_sum hab ?_, intTerms_order]
    · have := sum_order (belowBits nbits) subs0 subs1 o hp
        (fun k v => (((List.lookup k (admit (belowBits nbits) subs0 [])).getD 0#64) ^^^ (v.getD 0#64)).toNat % 2 ^ nbits)
      rw [this]
      have e : ∀ k ∈ bothKeys (belowBits nbits) subs0 subs1,
          ((List.lookup k (admit (belowBits nbits) subs0 [])).getD 0#64 ^^^
            (firstOf (belowBits nbits) subs1 k).getD 0#64).toNat % 2 ^ nbits =
          (intTerm (belowBits nbits) subs0 subs1 k).toNat := by
        intro k _
        rw [C34_first_admissible]
        exact Nat.mod_eq_of_lt (C49_int_term_lt nbits subs0 subs1 k)
      rw [Finset.sum_congr rfl e]
      rfl
    · intro t ht
      rw [List.mem_iff_getElem] at ht
      obtain ⟨i, hi, rfl⟩ := ht
      rw [List.getElem_zipWith, List.length_zipWith, List.length_zip]
      rw [intRows_vals _ _ _ _ _ (List.getElem_mem _)]
      simp
  have hB : sumFirst B = BitVec.ofNat 64 (intTotal nbits subs0 subs1) - sumFirst A := by rw [← hsum]; ring
  rw [hu.1, hu.2] at hB
  refine ⟨_, ((listen_pairW o.keys (order_keyed hp hk1) (by simp; omega)).bind (hpw.bind (tail_pairW
    (fun b => finish _ _ (_ + b)) _))).cast rfl rfl ?_ ?_⟩
  · rw [← hB]; simp
  · simp

/-- C63 for INT_SUM, server 0: as for BIT_SUM, with the sum modulo 2^64. -/
theorem C63_int_sum_server0 (nbits : ℕ) (hb : nbits < 64) (subs0 subs1 subs1' : List (Bytes × U64)) (rest0 rest1 rest1' : Bytes)
    (hk0 : Keyed subs0) (hk1 : Keyed subs1) (hk1' : Keyed subs1') (hlen : subs1.length < 2 ^ 32) (hlen' : subs1'.length < 2 ^ 32)
    (ord ord' : Map U64 → Map U64) (ho : IsOrder ord) (ho' : IsOrder ord') (junk : ℕ → U64) (raw : ℕ → ℕ → ℕ → U64)
    (hkeys : (ord (admit (belowBits nbits) subs1 [])).keys = (ord' (admit (belowBits nbits) subs1' [])).keys)
    (hsum : intTotal nbits subs0 subs1 % 2 ^ 64 = intTotal nbits subs0 subs1' % 2 ^ 64) :
    ∃ v, Sees0 (intSumOp0 nbits subs0.length (encIntShares subs0 ++ rest0) junk raw)
        (intSumOp1 nbits subs1.length (encIntShares subs1 ++ rest1) ord) v ∧
      Sees0 (intSumOp0 nbits subs0.length (encIntShares subs0 ++ rest0) junk raw)
        (intSumOp1 nbits subs1'.length (encIntShares subs1' ++ rest1') ord') v := by
  obtain ⟨r, h⟩ := intSum_view nbits hb subs0 subs1 rest0 rest1 hk0 hk1 hlen ord ho junk raw
  obtain ⟨r', h'⟩ := intSum_view nbits hb subs0 subs1' rest0 rest1' hk0 hk1' hlen' ord' ho' junk raw
  have e : (BitVec.ofNat 64 (intTotal nbits subs0 subs1) : U64) = BitVec.ofNat 64 (intTotal nbits subs0 subs1') := by
    apply BitVec.eq_of_toNat_eq
    rw [BitVec.toNat_ofNat, BitVec.toNat_ofNat, hsum]
  rw [← hkeys, ← e] at h'
  exact ⟨_, h.sees0, h'.sees0⟩

/-- Values 3 and 0 against 1 and 2: the same sum, and the same view for server 0. -/
example (junk : ℕ → U64) (raw : ℕ → ℕ → ℕ → U64) :
    let k : ℕ → Bytes := fun i => List.replicate pkLength (BitVec.ofNat 8 i)
    ∃ v, Sees0 (intSumOp0 4 2 (encIntShares [(k 1, 0#64), (k 2, 5#64)] ++ []) junk raw)
        (intSumOp1 4 2 (encIntShares [(k 1, 3#64), (k 2, 5#64)] ++ []) List.reverse) v ∧
      Sees0 (intSumOp0 4 2 (encIntShares [(k 1, 0#64), (k 2, 5#64)] ++ []) junk raw)
        (intSumOp1 4 2 (encIntShares [(k 1, 1#64), (k 2, 7#64)] ++ []) List.reverse) v := by
  intro k
  have hk : ∀ b b', Keyed [(k 1, (b : U64)), (k 2, (b' : U64))] := by
    intro b b' x hx
    simp only [List.mem_cons, List.not_mem_nil, or_false] at hx
    rcases hx with rfl | rfl <;> rfl
  exact C63_int_sum_server0 4 (by decide) [(k 1, 0#64), (k 2, 5#64)] [(k 1, 3#64), (k 2, 5#64)] [(k 1, 1#64), (k 2, 7#64)] [] [] []
    (hk _ _) (hk _ _) (hk _ _) (by decide) (by decide) List.reverse List.reverse (fun m => m.reverse_perm) (fun m => m.reverse_perm) junk raw
    (by decide) (by decide)

/-- C63, what is revealed: as for BIT_SUM, with the sum modulo 2^64. -/
theorem C63_int_sum_reveals (nbits : ℕ) (hb : nbits < 64) (subs0 subs1 subs1' : List (Bytes × U64)) (rest0 rest1 rest1' : Bytes)
    (hk0 : Keyed subs0) (hk1 : Keyed subs1) (hk1' : Keyed subs1') (hlen : subs1.length < 2 ^ 32) (hlen' : subs1'.length < 2 ^ 32)
    (ord ord' : Map U64 → Map U64) (ho : IsOrder ord) (ho' : IsOrder ord') (junk : ℕ → U64) (raw : ℕ → ℕ → ℕ → U64)
    (hkeys : (ord (admit (belowBits nbits) subs1 [])).keys = (ord' (admit (belowBits nbits) subs1' [])).keys) (v : List Seen)
    (hv : Sees0 (intSumOp0 nbits subs0.length (encIntShares subs0 ++ rest0) junk raw)
        (intSumOp1 nbits subs1.length (encIntShares subs1 ++ rest1) ord) v)
    (hv' : Sees0 (intSumOp0 nbits subs0.length (encIntShares subs0 ++ rest0) junk raw)
        (intSumOp1 nbits subs1'.length (encIntShares subs1' ++ rest1') ord') v) :
    intTotal nbits subs0 subs1 % 2 ^ 64 = intTotal nbits subs0 subs1' % 2 ^ 64 := by
  obtain ⟨r, h⟩ := intSum_view nbits hb subs0 subs1 rest0 rest1 hk0 hk1 hlen ord ho junk raw
  obtain ⟨r', h'⟩ := intSum_view nbits hb subs0 subs1' rest0 rest1' hk0 hk1' hlen' ord' ho' junk raw
  rw [← hkeys] at h'
  have e := (h.sees0.unique hv).trans (h'.sees0.unique hv').symm
  have e := congrArg BitVec.toNat (sub_left_injective (seenBytes_encU64_inj (List.append_cancel_left e)))
  rwa [BitVec.toNat_ofNat, BitVec.toNat_ofNat] at e

theorem senderCol_congr (m : U64) (raw raw' : ℕ → U64) (k w : ℕ) (x acc acc' : U64) (h : ∀ t, k ≤ t → raw t = raw' t) :
    (senderCol m raw k w x acc).1 = (senderCol m raw' k w x acc').1 := by
  induction w generalizing k x acc acc' with
  | zero => rfl
  | succ w ih =>
    simp only [senderCol]
    rw [h k le_rfl, ih (k + 1) _ _ _ fun t ht => h t (by omega)]

theorem col_choose_shift (k w : ℕ) (x x' y : U64) : ∃ d : ℕ → U64, ∀ (raw : ℕ → U64) (acc acc' : U64),
    otChoose (senderCol 0#64 raw k w x acc).1 (valBits w y) = otChoose (senderCol 0#64 (fun t => raw t + d t) k w x' acc').1 (valBits w y) := by
  induction w generalizing k x x' y with
  | zero => exact ⟨fun _ => 0, fun _ _ _ => rfl⟩
  | succ w ih =>
    obtain ⟨d, hd⟩ := ih (k + 1) (x >>> 1) (x' >>> 1) (y >>> 1)
    let c : U64 → U64 := fun v => if v % 2#64 ≠ 0#64 then otMax 0#64 - 1#64 <<< k + 1#64 else 1#64 <<< k
    refine ⟨fun t => if t = k then (if y % 2#64 ≠ 0#64 then c x - c x' else 0#64) else d t, ?_⟩
    intro raw acc acc'
    have hd' := hd raw (redMod 0#64 (acc + (x % 2#64 * (1#64 <<< k) + (otMax 0#64 - redMod 0#64 (raw k) + 1#64)))) 0#64
    simp only [senderCol, valBits, otChoose_cons]
    refine List.cons_eq_cons.2 ⟨?_, ?_⟩
    · simp only [redMod, if_true]
      by_cases hy : y % 2#64 = 0#64
      · simp [hy]
      · simp only [hy, not_false_eq_true, if_true, decide_true, ne_eq, c]
        ring
    · rw [hd']
      congr 1
      refine senderCol_congr _ _ _ _ _ _ _ _ fun t ht => ?_
      rw [if_neg (by omega)]

theorem int_choose_shift (nbits : ℕ) (m m' : Map U64) (ord : Map U64) (h : ∀ e ∈ ord, (m.lookup e.1).isSome = (m'.lookup e.1).isSome) :
    ∃ d : ℕ → ℕ → U64, ∀ (junk junk' : ℕ → U64) (raw : ℕ → ℕ → ℕ → U64),
      otChoose ((intRows m junk raw ord.keys).flatMap fun r => (senderRow 0#64 [nbits] r).1)
        ((ord.map fun e => [e.2]).flatMap fun y => rowBits y [nbits]) =
      otChoose ((intRows m' junk' (fun i j k => raw i j k + d i k) ord.keys).flatMap fun r => (senderRow 0#64 [nbits] r).1)
        ((ord.map fun e => [e.2]).flatMap fun y => rowBits y [nbits]) := by
  induction ord with
  | nil => exact ⟨fun _ _ => 0, fun _ _ _ => rfl⟩
  | cons e ord ih =>
    obtain ⟨k, y⟩ := e
    obtain ⟨d, hd⟩ := ih fun e he => h e (List.mem_cons_of_mem _ he)
    have h0 := h _ List.mem_cons_self
    obtain ⟨c, hc⟩ := col_choose_shift 0 nbits ((m.lookup k).getD 0#64) ((m'.lookup k).getD 0#64) y
    refine ⟨fun i => if i = 0 then c else d (i - 1), ?_⟩
    intro junk junk' raw
    simp only [Map.keys, List.map_cons, intRows_cons, List.flatMap_cons]
    simp only [Nat.add_eq_zero_iff, one_ne_zero, and_false, if_false, if_true, Nat.add_sub_cancel]
    have ht := hd (fun i => junk (i + 1)) (fun i => junk' (i + 1)) fun i => raw (i + 1)
    rw [otChoose_append _ _ _ _ (by rw [senderRow_length, rowBits_length _ _ rfl]; split <;> simp),
      otChoose_append _ _ _ _ (by rw [senderRow_length, rowBits_length _ _ rfl]; split <;> simp)]
    congr 1
    simp only at h0
    rcases hm : m.lookup k with _ | b <;> rcases hm' : m'.lookup k with _ | b' <;> rw [hm, hm'] at h0 <;> simp at h0
    · rfl
    · rw [hm, hm'] at hc
      simp only [senderRow, if_true, senderCols, List.append_nil, rowBits, List.zipWith_cons_cons, List.zipWith_nil_right, List.flatten_cons,
        List.flatten_nil]
      exact hc (raw 0 0) 0#64 0#64

/-- C63 for INT_SUM, server 1: as for BIT_SUM. -/
theorem C63_int_sum_server1 (nbits : ℕ) (hb : nbits < 64) (subs0 subs0' subs1 : List (Bytes × U64)) (rest0 rest0' rest1 : Bytes)
    (hk0 : Keyed subs0) (hk0' : Keyed subs0') (hk1 : Keyed subs1) (hlen : subs1.length < 2 ^ 32) (ord : Map U64 → Map U64) (ho : IsOrder ord)
    (hkeys : SameKeys (belowBits nbits) subs0 subs0') :
    ∃ d : ℕ → ℕ → U64, ∀ (junk junk' : ℕ → U64) (raw : ℕ → ℕ → ℕ → U64), ∃ v,
      Sees1 (intSumOp0 nbits subs0.length (encIntShares subs0 ++ rest0) junk raw)
        (intSumOp1 nbits subs1.length (encIntShares subs1 ++ rest1) ord) v ∧
      Sees1 (intSumOp0 nbits subs0'.length (encIntShares subs0' ++ rest0') junk' fun i j k => raw i j k + d i k)
        (intSumOp1 nbits subs1.length (encIntShares subs1 ++ rest1) ord) v := by
  obtain ⟨d, hd⟩ := int_choose_shift nbits (admit (belowBits nbits) subs0 []) (admit (belowBits nbits) subs0' [])
    (ord (admit (belowBits nbits) subs1 [])) fun e _ => by rw [C34_first_admissible, C34_first_admissible]; exact hkeys e.1
  refine ⟨d, fun junk junk' raw => ?_⟩
  obtain ⟨r, h⟩ := intSum_view nbits hb subs0 subs1 rest0 rest1 hk0 hk1 hlen ord ho junk raw
  obtain ⟨r', h'⟩ := intSum_view nbits hb subs0' subs1 rest0' rest1 hk0' hk1 hlen ord ho junk' fun i j k => raw i j k + d i k
  rw [← hd junk junk' raw] at h'
  exact ⟨_, h.sees1, h'.sees1⟩

/-- A share too large for the value's width counts as no submission, so replacing one changes the keys. -/
example :
    let k : Bytes := List.replicate pkLength 1#8
    SameKeys (belowBits 4) [(k, 3#64)] [(k, 15#64)] ∧ ¬ SameKeys (belowBits 4) [(k, 3#64)] [(k, 16#64)] := by
  intro k
  refine ⟨fun x => ?_, fun h => absurd (h k) (by decide)⟩
  by_cases h1 : x = k
  · subst h1; decide
  · simp [firstOf, List.find?, beq_eq_false_iff_ne.2 (Ne.symm h1)]

end Verif

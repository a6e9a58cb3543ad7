import Verif.LemmasServer

/-!
# C34, C35, C36, C48, C49: which submissions count, BIT_SUM and INT_SUM
-/

namespace Verif

variable {α : Type}

/-- Specification: the submission used for a key is the first in arrival order under that key that passes the
check. -/
def firstOf (ok : α → Bool) (subs : List (Bytes × α)) (k : Bytes) : Option α :=
  (subs.find? fun s => s.1 == k && ok s.2).map (·.2)

/-- Specification: the keys for which both servers hold a submission. -/
def bothKeys (ok : α → Bool) (subs0 subs1 : List (Bytes × α)) : Finset Bytes :=
  (subs0.map (·.1)).toFinset.filter fun k => (firstOf ok subs0 k).isSome ∧ (firstOf ok subs1 k).isSome

/-- `ord` lists every map in some order. -/
def IsOrder (ord : Map α → Map α) : Prop := ∀ m, (ord m).Perm m

/-- The keys are 32 bytes long, as every key read from a connection is. -/
def Keyed (subs : List (Bytes × α)) : Prop := ∀ e ∈ subs, e.1.length = pkLength

/-! ## C34 -/

/-- C34. The map holds for each key the first admissible submission. -/
theorem C34_first_admissible (ok : α → Bool) (subs : List (Bytes × α)) (k : Bytes) :
    (admit ok subs []).lookup k = firstOf ok subs k := by
  rw [admit_lookup]; rfl

/-- C34. The map holds every key once. -/
theorem C34_keys_once (ok : α → Bool) (subs : List (Bytes × α)) : (admit ok subs []).keys.Nodup :=
  admit_nodup ok subs [] (by simp)

/-- Keys already present, or values that fail the check, leave the map as it is. -/
theorem admit_append (ok : α → Bool) (xs ys : List (Bytes × α)) (m : Map α) :
    admit ok (xs ++ ys) m = admit ok ys (admit ok xs m) := by
  induction xs generalizing m with
  | nil => rfl
  | cons e xs ih => obtain ⟨k, v⟩ := e; rw [List.cons_append, admit, admit]; split <;> exact ih _

/-- C34. A submission under a key that already has an admissible submission changes nothing, wherever it arrives
later; so does one that fails the check. -/
theorem C34_later_ignored (ok : α → Bool) (xs ys : List (Bytes × α)) (k : Bytes) (v : α)
    (h : (∃ w, (k, w) ∈ xs ∧ ok w = true) ∨ ok v = false) :
    admit ok (xs ++ (k, v) :: ys) [] = admit ok (xs ++ ys) [] := by
  rw [admit_append, admit_append, admit, if_pos]
  rcases h with ⟨w, hw, ho⟩ | h
  · rw [C34_first_admissible]
    have : (firstOf ok xs k).isSome = true := by
      unfold firstOf
      rw [Option.isSome_map, List.find?_isSome]
      exact ⟨_, hw, by simp [ho]⟩
    simp [this]
  · simp [h]

/-- C34, the loop of `bit_sum`, which reads the record itself: when the flag bytes are valid it stores the same. -/
theorem C34_bit_intake (subs : List (Bytes × Bool)) (hk : Keyed subs) (m : Map Bool) :
    bitIntake (subs.map fun e => e.1 ++ encBool e.2) m = some (admit (fun _ => true) subs m) := by
  induction subs generalizing m with
  | nil => rfl
  | cons e subs ih =>
    obtain ⟨k, v⟩ := e
    have hl : k.length = pkLength := hk (k, v) (List.mem_cons_self ..)
    have hk' : Keyed subs := fun e he => hk e (List.mem_cons_of_mem _ he)
    have e1 : recKey (k ++ encBool v) = k := by rw [recKey, List.take_left' hl]
    have e2 : recBool (k ++ encBool v) = some v := by
      rw [recBool, List.getD_eq_getElem?_getD, List.getElem?_append_right (by omega), hl]
      cases v <;> rfl
    rw [List.map_cons, bitIntake, admit, e1]
    dsimp only
    rw [e2]
    by_cases h : (List.lookup k m).isSome = true
    · simp [h, ih hk']
    · simp [h, ih hk']

/-- C34, the loop of `bit_sum`: a new key whose flag byte is neither 0 nor 1 is undefined behaviour. -/
theorem C34_bit_bad_flag (r : Bytes) (rs : List Bytes) (m : Map Bool) (hk : (m.lookup (recKey r)).isSome = false)
    (h0 : r.getD pkLength 0#8 ≠ 0#8) (h1 : r.getD pkLength 0#8 ≠ 1#8) : bitIntake (r :: rs) m = none := by
  rw [bitIntake, if_neg (by simp [hk])]
  have : recBool r = none := by
    unfold recBool boolOfByte
    rw [if_neg h0, if_neg h1]
  rw [this]

/-- Non-vacuity: a duplicate and an inadmissible submission; the second submission under key `[1]` is stored, since
the first fails the check. -/
example : admit (fun v : ℕ => decide (v < 10)) [([1#8], 12), ([1#8], 7), ([2#8], 3), ([1#8], 8)] [] =
    [([1#8], 7), ([2#8], 3)] := by decide

/-! ## The keys in both maps -/

theorem bothKeys_eq (ok : α → Bool) (subs0 subs1 : List (Bytes × α)) (ord : Map α)
    (hp : ord.Perm (admit ok subs1 [])) :
    ord.keys.toFinset.filter (fun k => (List.lookup k (admit ok subs0 [])).isSome) = bothKeys ok subs0 subs1 := by
  ext k
  simp only [bothKeys, Finset.mem_filter, List.mem_toFinset, C34_first_admissible]
  have h1 : k ∈ ord.keys ↔ (firstOf ok subs1 k).isSome = true := by
    rw [← C34_first_admissible, lookup_isSome_iff]
    exact (hp.map _).mem_iff
  rw [h1]
  constructor
  · rintro ⟨a, b⟩
    refine ⟨?_, b, a⟩
    unfold firstOf at b
    rw [Option.isSome_map, List.find?_isSome] at b
    obtain ⟨s, hs, hk⟩ := b
    simp only [Bool.and_eq_true, beq_iff_eq] at hk
    exact List.mem_map.2 ⟨s, hs, hk.1⟩
  · rintro ⟨_, b, a⟩; exact ⟨a, b⟩

theorem order_nodup {ok : α → Bool} {subs : List (Bytes × α)} {ord : Map α} (hp : ord.Perm (admit ok subs [])) :
    ord.keys.Nodup := (hp.map _).nodup_iff.2 (C34_keys_once ok subs)

theorem order_lookup {ok : α → Bool} {subs : List (Bytes × α)} {ord : Map α} (hp : ord.Perm (admit ok subs []))
    {e : Bytes × α} (he : e ∈ ord) : firstOf ok subs e.1 = some e.2 := by
  rw [← C34_first_admissible]
  exact lookup_of_mem (C34_keys_once ok subs) (hp.mem_iff.1 he)

theorem order_keyed {ok : α → Bool} {subs : List (Bytes × α)} {ord : Map α} (hp : ord.Perm (admit ok subs []))
    (hk : Keyed subs) : ∀ k ∈ ord.keys, k.length = pkLength := by
  intro k hk'
  obtain ⟨e, he, rfl⟩ := List.mem_map.1 hk'
  exact admit_ok ok subs [] (fun k _ => k.length = pkLength) (by simp) (fun e he _ => hk e he) e (hp.mem_iff.1 he)

theorem order_length {ok : α → Bool} {subs : List (Bytes × α)} {ord : Map α} (hp : ord.Perm (admit ok subs [])) :
    ord.length ≤ subs.length := by
  rw [hp.length_eq]; simpa using admit_length ok subs []

/-- A sum over the announced entries that are matched is a sum over the keys in both maps. -/
theorem sum_order {M : Type} [AddCommMonoid M] (ok : α → Bool) (subs0 subs1 : List (Bytes × α)) (ord : Map α)
    (hp : ord.Perm (admit ok subs1 [])) (F : Bytes → Option α → M) :
    (ord.map fun e => if (List.lookup e.1 (admit ok subs0 [])).isSome then F e.1 (some e.2) else 0).sum =
      ∑ k ∈ bothKeys ok subs0 subs1, F k (firstOf ok subs1 k) := by
  rw [← bothKeys_eq ok subs0 subs1 ord hp, ← sum_matched _ (order_nodup hp), List.map_map]
  congr 1
  refine List.map_congr_left fun e he => ?_
  simp only [Function.comp, order_lookup hp he]

theorem count_order (ok : α → Bool) (subs0 subs1 : List (Bytes × α)) (ord : Map α)
    (hp : ord.Perm (admit ok subs1 [])) :
    numTrue (matched (admit ok subs0 []) ord.keys) = (bothKeys ok subs0 subs1).card := by
  rw [numTrue_matched _ _ (order_nodup hp), bothKeys_eq ok subs0 subs1 ord hp]

/-! ## C48 -/

/-- C48. The floating-point comparison is the comparison with one half. -/
theorem C48_threshold (numValid total : ℕ) : belowThreshold numValid total = true ↔ 2 * numValid < total := by
  unfold belowThreshold invalidThreshold
  rw [decide_eq_true_iff]
  have e : (total : ℚ) * (1 - 1 / 2) = total / 2 := by ring
  rw [e, lt_div_iff₀ (by norm_num)]
  constructor
  · intro h; have : ((numValid * 2 : ℕ) : ℚ) < total := by push_cast; exact h
    have := Nat.cast_lt.1 this; omega
  · intro h; have : ((numValid * 2 : ℕ) : ℚ) < total := Nat.cast_lt.2 (by omega)
    push_cast at this; exact this

/-- Specification of the last step of server 0. -/
def verdict (numValid total : ℕ) (a : α) : Ret α := if 2 * numValid < total then .invalid else .ans a

theorem finish_eq (numValid total : ℕ) (a : α) : finish numValid total a = verdict numValid total a := by
  unfold finish verdict
  by_cases h : 2 * numValid < total
  · rw [if_pos h, if_pos ((C48_threshold _ _).2 h)]
  · rw [if_neg h, if_neg (fun h' => h ((C48_threshold _ _).1 h'))]

/-- Both sides of the boundary: 2 of 5 is rejected, 2 of 4 accepted. -/
example : finish 2 5 () = .invalid ∧ finish 2 4 () = .ans () := by
  rw [finish_eq, finish_eq]; decide

/-! ## C35 -/

theorem bitRows_cons (m : Map Bool) (junk : ℕ → Bool) (raw : ℕ → U64) (k : Bytes) (ks : List Bytes) :
    bitRows m junk raw (k :: ks) = (match m.lookup k with
      | some b => ⟨b, true, raw 0⟩
      | none => ⟨junk 0, false, raw 0⟩) :: bitRows m (fun i => junk (i + 1)) (fun i => raw (i + 1)) ks := by
  unfold bitRows
  rw [List.mapIdx_cons]
  rfl

theorem bitRows_length (m : Map Bool) (junk : ℕ → Bool) (raw : ℕ → U64) (ks : List Bytes) :
    (bitRows m junk raw ks).length = ks.length := by simp [bitRows]

theorem countDiff_order (m : Map Bool) (junk : ℕ → Bool) (raw : ℕ → U64) (ord : Map Bool) :
    countDiff (bitRows m junk raw ord.keys) (ord.map (·.2)) =
      (ord.map fun e => if (List.lookup e.1 m).isSome then (if List.lookup e.1 m ≠ some e.2 then 1 else 0) else 0).sum := by
  induction ord generalizing junk raw with
  | nil => rfl
  | cons e ord ih =>
    obtain ⟨k, v⟩ := e
    have ih' := ih (fun i => junk (i + 1)) (fun i => raw (i + 1))
    rw [Map.keys, List.map_cons, bitRows_cons, List.map_cons, countDiff_cons, List.map_cons, List.sum_cons,
      ← ih']
    congr 1
    rcases h : List.lookup k m with _ | b
    · simp
    · cases b <;> cases v <;> simp

/-- The submissions as the client sends them (client.cpp:140-143). -/
def encBitShares (subs : List (Bytes × Bool)) : Bytes := (subs.map fun e => e.1 ++ encBool e.2).flatten

theorem bitIntake_stream (subs : List (Bytes × Bool)) (hk : Keyed subs) (rest : Bytes) :
    ((recordLoop bitShareSize subs.length none (encBitShares subs ++ rest)).bind fun rs => bitIntake rs []) =
      some (admit (fun _ => true) subs []) := by
  have hl : subs.length = (subs.map fun e => e.1 ++ encBool e.2).length := by simp
  rw [hl, encBitShares, recordLoop_full]
  · exact C34_bit_intake subs hk []
  · intro r hr
    obtain ⟨e, he, rfl⟩ := List.mem_map.1 hr
    rw [List.length_append, hk e he]; rfl

/-- The number of keys held by both servers whose two bits differ. -/
def bitCount (subs0 subs1 : List (Bytes × Bool)) : ℕ :=
  ((bothKeys (fun _ => true) subs0 subs1).filter fun k =>
    firstOf (fun _ => true) subs0 k ≠ firstOf (fun _ => true) subs1 k).card

theorem bitSum_pair (subs0 subs1 : List (Bytes × Bool)) (rest0 rest1 : Bytes) (hk0 : Keyed subs0) (hk1 : Keyed subs1)
    (hlen : subs1.length < 2 ^ 32) (ord : Map Bool → Map Bool) (ho : IsOrder ord) (junk : ℕ → Bool) (raw : ℕ → U64) :
    Pair (bitSumOp0 subs0.length (encBitShares subs0 ++ rest0) junk raw)
      (bitSumOp1 subs1.length (encBitShares subs1 ++ rest1) ord)
      (verdict (bothKeys (fun _ => true) subs0 subs1).card subs0.length (BitVec.ofNat 64 (bitCount subs0 subs1)))
      .noAns := by
  unfold bitSumOp0 bitSumOp1
  rw [bitIntake_stream subs0 hk0, bitIntake_stream subs1 hk1]
  show Pair (bitSum0 _ _ _ _) (bitSum1 _) _ _
  have hp := ho (admit (fun _ => true) subs1 [])
  generalize ord (admit (fun _ => true) subs1 []) = o at hp
  unfold bitSum0 bitSum1
  have hol := order_length hp
  refine (listen_pair o.keys (order_keyed hp hk1) (by simp; omega)).bind ?_
  obtain ⟨a, b, hpair, hab⟩ := C16_pair false (bitRows (admit (fun _ => true) subs0 []) junk raw o.keys) (o.map (·.2))
    (by simp [bitRows_length])
  refine hpair.bind ?_
  refine (Pair.send10 (reads_u64 b)).bind ?_
  rw [hab, finish_eq, count_order _ _ _ _ hp]
  have e : countDiff (bitRows (admit (fun _ => true) subs0 []) junk raw o.keys) (o.map (·.2)) =
      bitCount subs0 subs1 := by
    rw [countDiff_order]
    have := sum_order (fun _ => true) subs0 subs1 o hp
      (fun k v => if List.lookup k (admit (fun _ => true) subs0 []) ≠ v then 1 else 0)
    rw [this, bitCount, Finset.card_filter]
    simp only [C34_first_admissible]
  rw [e]
  exact Pair.ret _ _

/-- C35. For all submissions at the two servers, iteration orders, masks, uninitialised values and schedules, `bit_sum`
ends at both servers with nothing left in the sockets; server 0 reports the number of keys held by both servers whose
bits differ, modulo 2^64, or an invalid batch when fewer than half of the submissions are matched. -/
theorem C35_bit_sum (subs0 subs1 : List (Bytes × Bool)) (rest0 rest1 : Bytes) (hk0 : Keyed subs0) (hk1 : Keyed subs1)
    (hlen : subs1.length < 2 ^ 32) (ord : Map Bool → Map Bool) (ho : IsOrder ord) (junk : ℕ → Bool) (raw : ℕ → U64) :
    Always (bitSumOp0 subs0.length (encBitShares subs0 ++ rest0) junk raw)
      (bitSumOp1 subs1.length (encBitShares subs1 ++ rest1) ord)
      (verdict (bothKeys (fun _ => true) subs0 subs1).card subs0.length (BitVec.ofNat 64 (bitCount subs0 subs1)))
      .noAns :=
  (bitSum_pair subs0 subs1 rest0 rest1 hk0 hk1 hlen ord ho junk raw).always

/-- Non-vacuity: three submissions at server 0, two at server 1, one of them a duplicate; the reversed order is an
order. -/
example : ∃ k1 k2 k3 : Bytes, Keyed [(k1, true), (k2, false), (k3, true)] ∧ Keyed [(k2, true), (k1, true), (k2, false)] ∧
    bitCount [(k1, true), (k2, false), (k3, true)] [(k2, true), (k1, true), (k2, false)] = 1 ∧
    IsOrder (List.reverse : Map Bool → Map Bool) := by
  refine ⟨List.replicate 32 1#8, List.replicate 32 2#8, List.replicate 32 3#8, ?_, ?_, by decide +kernel,
    fun m => List.reverse_perm m⟩
  · unfold Keyed; decide
  · unfold Keyed; decide

/-! ## C36, C49 -/

theorem intRows_cons (m : Map U64) (junk : ℕ → U64) (raw : ℕ → ℕ → ℕ → U64) (k : Bytes) (ks : List Bytes) :
    intRows m junk raw (k :: ks) = (match m.lookup k with
      | some v => ⟨[v], true, raw 0⟩
      | none => ⟨[junk 0], false, raw 0⟩) :: intRows m (fun i => junk (i + 1)) (fun i => raw (i + 1)) ks := by
  unfold intRows
  rw [List.mapIdx_cons]
  rfl

theorem intRows_length (m : Map U64) (junk : ℕ → U64) (raw : ℕ → ℕ → ℕ → U64) (ks : List Bytes) :
    (intRows m junk raw ks).length = ks.length := by simp [intRows]

theorem intRows_vals (m : Map U64) (junk : ℕ → U64) (raw : ℕ → ℕ → ℕ → U64) (ks : List Bytes) :
    ∀ r ∈ intRows m junk raw ks, r.vals.length = 1 := by
  induction ks generalizing junk raw with
  | nil => simp [intRows]
  | cons k ks ih =>
    rw [intRows_cons]
    intro r hr
    rcases List.mem_cons.1 hr with rfl | hr
    · split <;> rfl
    · exact ih _ _ r hr

/-- The submissions as the client sends them (client.cpp:271-274). -/
def encIntShares (subs : List (Bytes × U64)) : Bytes := (subs.map fun e => e.1 ++ rawWord e.2).flatten

theorem intRecords_stream (subs : List (Bytes × U64)) (hk : Keyed subs) (rest : Bytes) :
    intRecords subs.length (encIntShares subs ++ rest) = some subs := by
  have hl : subs.length = (subs.map fun e => e.1 ++ rawWord e.2).length := by simp
  unfold intRecords
  rw [hl, encIntShares, recordLoop_full]
  · simp only [Option.map_some, List.map_map]
    congr 1
    conv_rhs => rw [← List.map_id subs]
    refine List.map_congr_left fun e he => ?_
    have h := hk e he
    have h8 : (rawWord e.2).length = 8 := rawWord_length _
    simp only [Function.comp, recKey, recWord, List.take_left' h, List.drop_left' h, id_eq]
    rw [← h8, List.take_length, rawWord, word_roundtrip]
  · intro r hr
    obtain ⟨e, he, rfl⟩ := List.mem_map.1 hr
    rw [List.length_append, hk e he, rawWord_length]; rfl

/-- C49, the admission test: below 2^nbits. -/
def belowBits (nbits : ℕ) (v : U64) : Bool := decide (v.toNat < 2 ^ nbits)

theorem intIntake_stream (nbits : ℕ) (hb : nbits < 64) (subs : List (Bytes × U64)) (hk : Keyed subs) (rest : Bytes) :
    intIntake nbits subs.length (encIntShares subs ++ rest) = some (admit (belowBits nbits) subs []) := by
  unfold intIntake maxVal
  rw [if_pos hb, intRecords_stream subs hk]
  simp only [Option.bind_some, Option.map_some]
  congr 2
  funext v
  unfold belowBits
  have e : ((1#64 : U64) <<< nbits).toNat = 2 ^ nbits := by
    rw [BitVec.toNat_shiftLeft, BitVec.toNat_ofNat, Nat.shiftLeft_eq]
    norm_num
    exact Nat.pow_lt_pow_right (by norm_num) hb
  rw [← decide_not]
  refine decide_eq_decide.2 ?_
  rw [BitVec.le_def, e, not_le]

/-- C36. What a matched key contributes: the XOR of its two shares. -/
def intTerm (ok : U64 → Bool) (subs0 subs1 : List (Bytes × U64)) (k : Bytes) : U64 :=
  (firstOf ok subs0 k).getD 0#64 ^^^ (firstOf ok subs1 k).getD 0#64

theorem firstOf_ok {ok : α → Bool} {subs : List (Bytes × α)} {k : Bytes} {v : α} (h : firstOf ok subs k = some v) :
    ok v = true := by
  unfold firstOf at h
  rw [Option.map_eq_some_iff] at h
  obtain ⟨s, hs, rfl⟩ := h
  have := List.find?_some hs
  simp only [Bool.and_eq_true] at this
  exact this.2

/-- C49. For all submissions at both servers, whatever the clients sent, every counted value is below 2^nbits. -/
theorem C49_int_term_lt (nbits : ℕ) (subs0 subs1 : List (Bytes × U64)) (k : Bytes) :
    (intTerm (belowBits nbits) subs0 subs1 k).toNat < 2 ^ nbits := by
  have key : ∀ subs : List (Bytes × U64), ((firstOf (belowBits nbits) subs k).getD 0#64).toNat < 2 ^ nbits := by
    intro subs
    rcases h : firstOf (belowBits nbits) subs k with _ | v
    · simp
    · have := firstOf_ok h
      simpa [belowBits] using this
  unfold intTerm
  rw [BitVec.toNat_xor]
  exact Nat.xor_lt_two_pow (key subs0) (key subs1)

theorem sumFirst_eq (rows : List (List U64)) : sumFirst rows = (rows.map fun r => r.headD 0#64).sum := by
  have : ∀ s : U64, rows.foldl (fun s r => s + r.headD 0#64) s = s + (rows.map fun r => r.headD 0#64).sum := by
    induction rows with
    | nil => intro s; simp
    | cons r rows ih => intro s; rw [List.foldl_cons, ih, List.map_cons, List.sum_cons, add_assoc]
  unfold sumFirst
  rw [this]; simp

theorem matAgree_sum {A B : List (List U64)} {T : List (List ℕ)}
    (h : MatAgree (fun a b t => a + b = BitVec.ofNat 64 t) A B T) (h1 : ∀ t ∈ T, t.length = 1) :
    sumFirst A + sumFirst B = BitVec.ofNat 64 (T.map fun t => t.headD 0).sum := by
  rw [sumFirst_eq, sumFirst_eq]
  obtain ⟨hA, hB, h⟩ := h
  induction T generalizing A B with
  | nil =>
    have : A = [] := List.length_eq_zero_iff.1 (by simpa using hA)
    have : B = [] := List.length_eq_zero_iff.1 (by simpa using hB)
    subst_vars; simp
  | cons t T ih =>
    cases A with
    | nil => simp at hA
    | cons a A =>
      cases B with
      | nil => simp at hB
      | cons b B =>
        have h0 := (h 0 (by simp)).2.2 0 (by simp [h1 t (List.mem_cons_self ..)])
        have ih' := ih (fun t ht => h1 t (List.mem_cons_of_mem _ ht)) (A := A) (B := B) (by simpa using hA)
          (by simpa using hB) fun i hi => by simpa using h (i + 1) (by simpa using hi)
        have ea : ∀ (l : List U64), l.getD 0 0 = l.headD 0#64 := by intro l; cases l <;> rfl
        have et : ∀ (l : List ℕ), l.getD 0 0 = l.headD 0 := by intro l; cases l <;> rfl
        simp only [List.getD_cons_zero, ea, et] at h0
        simp only [List.map_cons, List.sum_cons]
        rw [BitVec.ofNat_add, ← ih', ← h0]
        ring

theorem intTerms_order (nbits : ℕ) (m : Map U64) (junk : ℕ → U64) (raw : ℕ → ℕ → ℕ → U64) (ord : Map U64) :
    ((List.zipWith (fun (r : IntRow) y => List.zipWith (fun (q : U64 × U64) w =>
      if r.valid then (q.1 ^^^ q.2).toNat % 2 ^ w else 0) (r.vals.zip y) [nbits]) (intRows m junk raw ord.keys)
        (ord.map fun e => [e.2])).map fun t => t.headD 0).sum =
      (ord.map fun e => if (List.lookup e.1 m).isSome then
        (((List.lookup e.1 m).getD 0#64) ^^^ ((some e.2).getD 0#64)).toNat % 2 ^ nbits else 0).sum := by
  induction ord generalizing junk raw with
  | nil => rfl
  | cons e ord ih =>
    obtain ⟨k, v⟩ := e
    have ih' := ih (fun i => junk (i + 1)) (fun i => raw (i + 1))
    rw [Map.keys, List.map_cons, intRows_cons, List.map_cons, List.zipWith_cons_cons, List.map_cons, List.sum_cons,
      List.map_cons, List.sum_cons, ← ih']
    congr 1
    rcases h : List.lookup k m with _ | b <;> simp

theorem intSum_pair (nbits : ℕ) (hb : nbits < 64) (subs0 subs1 : List (Bytes × U64)) (rest0 rest1 : Bytes)
    (hk0 : Keyed subs0) (hk1 : Keyed subs1) (hlen : subs1.length < 2 ^ 32) (ord : Map U64 → Map U64) (ho : IsOrder ord)
    (junk : ℕ → U64) (raw : ℕ → ℕ → ℕ → U64) :
    Pair (intSumOp0 nbits subs0.length (encIntShares subs0 ++ rest0) junk raw)
      (intSumOp1 nbits subs1.length (encIntShares subs1 ++ rest1) ord)
      (verdict (bothKeys (belowBits nbits) subs0 subs1).card subs0.length
        (BitVec.ofNat 64 (∑ k ∈ bothKeys (belowBits nbits) subs0 subs1, (intTerm (belowBits nbits) subs0 subs1 k).toNat)))
      .noAns := by
  unfold intSumOp0 intSumOp1
  rw [intIntake_stream nbits hb subs0 hk0, intIntake_stream nbits hb subs1 hk1]
  show Pair (intSum0 _ _ _ _ _) (intSum1 _ _) _ _
  have hp := ho (admit (belowBits nbits) subs1 [])
  generalize ord (admit (belowBits nbits) subs1 []) = o at hp
  unfold intSum0 intSum1
  have hol := order_length hp
  refine (listen_pair o.keys (order_keyed hp hk1) (by simp; omega)).bind ?_
  obtain ⟨A, B, hpair, hab⟩ := C18_pair false (intRows (admit (belowBits nbits) subs0 []) junk raw o.keys)
    (o.map fun e => [e.2]) [nbits] (by simp [intRows_length]) (intRows_vals _ _ _ _)
    (by intro y hy; obtain ⟨e, _, rfl⟩ := List.mem_map.1 hy; rfl) (by simp; omega)
  refine hpair.bind ?_
  refine (Pair.send10 (reads_u64 (sumFirst B))).bind ?_
  rw [matAgree_sum hab ?_, finish_eq, count_order _ _ _ _ hp, intTerms_order]
  · have := sum_order (belowBits nbits) subs0 subs1 o hp
      (fun k v => (((List.lookup k (admit (belowBits nbits) subs0 [])).getD 0#64) ^^^ (v.getD 0#64)).toNat % 2 ^ nbits)
    rw [this]
    have e : ∀ k ∈ bothKeys (belowBits nbits) subs0 subs1,
        ((List.lookup k (admit (belowBits nbits) subs0 [])).getD 0#64 ^^^
          (firstOf (belowBits nbits) subs1 k).getD 0#64).toNat % 2 ^ nbits =
        (intTerm (belowBits nbits) subs0 subs1 k).toNat := by
      intro k _
      rw [C34_first_admissible]
      exact Nat.mod_eq_of_lt (C49_int_term_lt nbits subs0 subs1 k)
    rw [Finset.sum_congr rfl e]
    exact Pair.ret _ _
  · intro t ht
    rw [List.mem_iff_getElem] at ht
    obtain ⟨i, hi, rfl⟩ := ht
    rw [List.getElem_zipWith, List.length_zipWith, List.length_zip]
    rw [intRows_vals _ _ _ _ _ (List.getElem_mem _)]
    simp

/-- C36. For all submissions at the two servers, also those of malicious clients, all widths up to 63, iteration orders,
masks, uninitialised values and schedules, `int_sum` ends at both servers with nothing left in the sockets; server 0
reports the sum over the keys held by both servers of the XOR of the two shares, modulo 2^64, or an invalid batch when
fewer than half of the submissions are matched. Each term is below 2^nbits by C49. -/
theorem C36_int_sum (nbits : ℕ) (hb : nbits < 64) (subs0 subs1 : List (Bytes × U64)) (rest0 rest1 : Bytes)
    (hk0 : Keyed subs0) (hk1 : Keyed subs1) (hlen : subs1.length < 2 ^ 32) (ord : Map U64 → Map U64) (ho : IsOrder ord)
    (junk : ℕ → U64) (raw : ℕ → ℕ → ℕ → U64) :
    Always (intSumOp0 nbits subs0.length (encIntShares subs0 ++ rest0) junk raw)
      (intSumOp1 nbits subs1.length (encIntShares subs1 ++ rest1) ord)
      (verdict (bothKeys (belowBits nbits) subs0 subs1).card subs0.length
        (BitVec.ofNat 64 (∑ k ∈ bothKeys (belowBits nbits) subs0 subs1, (intTerm (belowBits nbits) subs0 subs1 k).toNat)))
      .noAns :=
  (intSum_pair nbits hb subs0 subs1 rest0 rest1 hk0 hk1 hlen ord ho junk raw).always

/-- Non-vacuity: width 4; key 2 is only usable at server 0 (20 is out of range), key 1 contributes 5 xor 3 = 6. -/
example : ∃ k1 k2 : Bytes, Keyed [(k1, 5#64), (k2, 1#64)] ∧ Keyed [(k2, 20#64), (k1, 3#64)] ∧
    ∑ k ∈ bothKeys (belowBits 4) [(k1, 5#64), (k2, 1#64)] [(k2, 20#64), (k1, 3#64)],
      (intTerm (belowBits 4) [(k1, 5#64), (k2, 1#64)] [(k2, 20#64), (k1, 3#64)] k).toNat = 6 := by
  refine ⟨List.replicate 32 1#8, List.replicate 32 2#8, ?_, ?_, by decide +kernel⟩
  · unfold Keyed; decide
  · unfold Keyed; decide

/-- Every byte stream that is long enough is the encoding of some submissions, so C36 covers all of them. -/
theorem int_stream_covered (n : ℕ) (s : Bytes) (h : intShareSize * n ≤ s.length) :
    ∃ subs rest, subs.length = n ∧ Keyed subs ∧ s = encIntShares subs ++ rest := by
  induction n generalizing s with
  | zero => exact ⟨[], s, rfl, by simp [Keyed], rfl⟩
  | succ n ih =>
    have hs : intShareSize = 40 := rfl
    have hp : pkLength = 32 := rfl
    rw [hs] at h ih
    obtain ⟨subs, rest, hl, hk, he⟩ := ih (s.drop 40) (by rw [List.length_drop]; omega)
    have h8 : ((s.drop 32).take 8).length = 8 := by rw [List.length_take, List.length_drop]; omega
    refine ⟨(s.take 32, BitVec.ofNat 64 (leVal ((s.drop 32).take 8))) :: subs, rest, by simp [hl], ?_, ?_⟩
    · intro e he
      rcases List.mem_cons.1 he with rfl | he
      · rw [List.length_take]; omega
      · exact hk e he
    · have hw : rawWord (BitVec.ofNat 64 (leVal ((s.drop 32).take 8))) = (s.drop 32).take 8 := by
        have hb := leVal_lt ((s.drop 32).take 8)
        rw [h8] at hb
        have := leBytes_leVal ((s.drop 32).take 8)
        rw [h8] at this
        rw [rawWord, BitVec.toNat_ofNat, Nat.mod_eq_of_lt (lt_of_lt_of_eq hb (by norm_num)), this]
      have e1 : s = s.take 32 ++ ((s.drop 32).take 8 ++ s.drop 40) := by
        have : s.drop 40 = (s.drop 32).drop 8 := by rw [List.drop_drop]
        rw [this, List.take_append_drop, List.take_append_drop]
      conv_lhs => rw [e1, he]
      simp only [encIntShares, List.map_cons, List.flatten_cons, hw, List.append_assoc]

/-- C49 for streams: whatever bytes a client sends, also too few, every admitted share is below 2^nbits. -/
theorem C49_stream (nbits total : ℕ) (stream : Bytes) (m : Map U64) (h : intIntake nbits total stream = some m) :
    ∀ e ∈ m, e.2.toNat < 2 ^ nbits := by
  unfold intIntake maxVal at h
  split at h
  · rename_i hb
    simp only [Option.bind_some, Option.map_eq_some_iff] at h
    obtain ⟨rs, _, rfl⟩ := h
    refine admit_ok _ rs [] (fun _ v => v.toNat < 2 ^ nbits) (by simp) ?_
    intro e _ he
    have e1 : ((1#64 : U64) <<< nbits).toNat = 2 ^ nbits := by
      rw [BitVec.toNat_shiftLeft, BitVec.toNat_ofNat, Nat.shiftLeft_eq]
      norm_num
      exact Nat.pow_lt_pow_right (by norm_num) hb
    rw [← decide_not, decide_eq_true_iff, BitVec.le_def, e1, not_le] at he
    exact he
  · simp at h

/-- A width of 64 or more is undefined behaviour at both servers. -/
theorem C36_width (nbits : ℕ) (hb : 64 ≤ nbits) (total : ℕ) (stream : Bytes) (junk : ℕ → U64) (raw : ℕ → ℕ → ℕ → U64)
    (ord : Map U64 → Map U64) :
    intSumOp0 nbits total stream junk raw = .fault ∧ intSumOp1 nbits total stream ord = .fault := by
  unfold intSumOp0 intSumOp1 intIntake maxVal
  rw [if_neg (by omega)]
  exact ⟨rfl, rfl⟩

end Verif

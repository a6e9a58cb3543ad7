import Verif.PropsMax
import Verif.PropsRecv
import Verif.LemmasSnipRun

/-!
# C57: a client connection that ends early

The operations ignore the result of `recv_in` (server.cpp:305, 391, 494): after the end of the stream the local variable keeps what it held before.
-/

namespace Verif

/-! ## recv_in at the end of the stream -/

private theorem recv_eof (len : ℕ) (hlen : len < 2 ^ 32) :
    ∀ (evs : List RecvEv) (n : ℕ) (done rest0 s : Bytes) (out : RecvOut), Delivers evs → done.length = n → n + rest0.length = len → n + s.length < len →
      recvInLoop (BitVec.ofNat 64 len) (evs ++ [.eof]) (BitVec.ofNat 32 n) (done ++ rest0) s = some out → out.rest = [] →
      out.buf = done ++ s ++ rest0.drop s.length ∧ out.ret = 0 := by
  have hL : (BitVec.ofNat 64 len).toNat = len := by
    rw [BitVec.toNat_ofNat]; apply Nat.mod_eq_of_lt; omega
  intro evs
  induction evs with
  | nil =>
    intro n done rest0 s out _ hd hr hs h h0
    have hN : ((BitVec.ofNat 32 n).setWidth 64).toNat = n := by
      rw [BitVec.toNat_setWidth, BitVec.toNat_ofNat]
      rw [Nat.mod_eq_of_lt (by omega)]; apply Nat.mod_eq_of_lt; omega
    rw [List.nil_append, recvInLoop, if_pos (by rw [BitVec.lt_def, hL, hN]; omega)] at h
    cases h
    dsimp only at h0
    subst h0
    simp
  | cons e evs ih =>
    intro n done rest0 s out hdel hd hr hs h h0
    have hN : ((BitVec.ofNat 32 n).setWidth 64).toNat = n := by
      rw [BitVec.toNat_setWidth, BitVec.toNat_ofNat]
      rw [Nat.mod_eq_of_lt (by omega)]; apply Nat.mod_eq_of_lt; omega
    obtain ⟨k, rfl, hk⟩ := hdel e (List.mem_cons_self ..)
    rw [List.cons_append, recvInLoop, if_pos (by rw [BitVec.lt_def, hL, hN]; omega)] at h
    have hreq : (BitVec.ofNat 64 len - (BitVec.ofNat 32 n).setWidth 64).toNat = len - n := by
      rw [BitVec.toNat_sub_of_le (by rw [BitVec.le_def, hL, hN]; omega), hL, hN]
    simp only [hreq] at h
    split at h
    · cases h
    rename_i hne
    set d := s.take (min k (len - n)) with hdd
    have hdl : d.length ≤ s.length := by rw [hdd, List.length_take]; omega
    have hcnt : BitVec.ofNat 32 n + BitVec.ofNat 32 d.length = BitVec.ofNat 32 (n + d.length) := by rw [BitVec.ofNat_add]
    have hNN : (BitVec.ofNat 32 n).toNat = n := by rw [BitVec.toNat_ofNat, Nat.mod_eq_of_lt (by omega)]
    have hw : writeAt (done ++ rest0) n d = (done ++ d) ++ rest0.drop d.length := by
      unfold writeAt
      rw [List.take_left' hd, List.drop_append, hd, List.drop_eq_nil_of_le (by omega), List.nil_append]
      congr 2; clear hreq hN hNN hcnt; omega
    have hsd : d ++ s.drop d.length = s := by
      have : d = s.take d.length := by
        rw [hdd, List.length_take]
        rcases Nat.le_total (min k (len - n)) s.length with h | h
        · rw [Nat.min_eq_left h]
        · rw [Nat.min_eq_right h, List.take_of_length_le h, List.take_of_length_le (Nat.le_refl _)]
      have e : s.take d.length ++ s.drop d.length = s := List.take_append_drop ..
      rwa [← this] at e
    rw [hcnt, hNN, hw] at h
    have hl2 : (s.drop d.length).length = s.length - d.length := List.length_drop ..
    obtain ⟨h1, h2⟩ := ih (n + d.length) (done ++ d) (rest0.drop d.length) (s.drop d.length) out
      (fun e h => hdel e (List.mem_cons_of_mem _ h)) (by simp [hd]) (by rw [List.length_drop]; omega) (by rw [hl2]; omega) h h0
    refine ⟨?_, h2⟩
    rw [h1, List.drop_drop, hl2, List.append_assoc done, hsd]
    congr 2
    omega

/-- C57, at the socket: a peer that closes after fewer bytes than requested, in whatever fragments, leaves the bytes it sent followed by the
earlier content of the buffer; the result is 0. This is what `fillBuf` describes. -/
theorem C57_recv_in (len : ℕ) (hlen : len < 2 ^ 32) (evs : List RecvEv) (hev : Delivers evs) (buf s : Bytes) (hb : buf.length = len)
    (hs : s.length < len) {out : RecvOut} (h : recvIn (BitVec.ofNat 64 len) (evs ++ [.eof]) buf s = some out) (hr : out.rest = []) :
    out.ret = 0 ∧ fillBuf len (some buf) s = (some out.buf, out.rest) := by
  obtain ⟨h1, h2⟩ := recv_eof len hlen evs 0 [] buf s out hev rfl (by omega) (by omega) h hr
  refine ⟨h2, ?_⟩
  rw [fillBuf, if_neg (by omega), h1, hr]
  simp

/-- Six of ten bytes arrive in two fragments. -/
example : ∃ out, recvIn 10#64 ([.chunk 4, .chunk 2] ++ [.eof]) [0, 1, 2, 3, 4, 5, 6, 7, 8, 9] [10, 11, 12, 13, 14, 15] = some out ∧ out.rest = [] ∧
    out.buf = [10, 11, 12, 13, 14, 15, 6, 7, 8, 9] := ⟨⟨0, [10, 11, 12, 13, 14, 15, 6, 7, 8, 9], [], []⟩, by decide +kernel⟩

/-! ## Records -/

/-- The records seen by the loop when the stream ends after `part`, a proper prefix of a record. -/
theorem recordLoop_cut (n : ℕ) (rs : List Bytes) (h : ∀ r ∈ rs, r.length = n) (last part : Bytes) (hp : part.length < n) (k : ℕ) (buf : Option Bytes)
    (hl : last.length = n) :
    recordLoop n (rs.length + 1 + k) buf ((rs ++ [last]).flatten ++ part) =
      some (rs ++ [last] ++ List.replicate k (part ++ last.drop part.length)) := by
  have dry : ∀ (k : ℕ) (b : Bytes), 0 < n → recordLoop n k (some b) [] = some (List.replicate k b) := by
    intro k b hn
    induction k with
    | zero => rfl
    | succ k ih =>
      rw [recordLoop, fillBuf, if_neg (by simp; omega)]
      simp [ih, List.replicate_succ]
  induction rs generalizing buf with
  | nil =>
    have e : ([] ++ [last]).flatten ++ part = last ++ part := by simp
    rw [e, List.length_nil, Nat.zero_add, Nat.add_comm, recordLoop, fillBuf, if_pos (by simp; omega)]
    dsimp only
    rw [List.take_left' hl, List.drop_left' hl]
    cases k with
    | zero => simp [recordLoop]
    | succ k =>
      rw [recordLoop, fillBuf, if_neg (by omega)]
      simp only [Option.map_some]
      rw [dry _ _ (by omega)]
      simp [List.replicate_succ]
  | cons r rs ih =>
    have hr : r.length = n := h r (List.mem_cons_self ..)
    have e : ((r :: rs) ++ [last]).flatten ++ part = r ++ ((rs ++ [last]).flatten ++ part) := by simp
    rw [e, show (r :: rs).length + 1 + k = (rs.length + 1 + k) + 1 by simp; omega, recordLoop, fillBuf, if_pos (by simp; omega)]
    dsimp only
    rw [List.take_left' hr, List.drop_left' hr, ih fun r hr => h r (List.mem_cons_of_mem _ hr)]
    rfl

/-- C57: with nothing complete before the end the local variable is used uninitialised. -/
theorem C57_empty_undefined (n k : ℕ) (part : Bytes) (hp : part.length < n) : recordLoop n (k + 1) none part = none := by
  rw [recordLoop, fillBuf, if_neg (by omega)]
  rfl

/-! ## `IntShare` records -/

/-- The first `j` bytes (low ones) of `new`, the others of `old`. -/
def mixWord (j : ℕ) (new old : U64) : U64 := BitVec.ofNat 64 (new.toNat % 256 ^ j + 256 ^ j * (old.toNat / 256 ^ j))

theorem leBytes_take (j : ℕ) : ∀ (n x : ℕ), j ≤ n → (leBytes n x).take j = leBytes j x := by
  induction j with
  | zero => intro n x _; rfl
  | succ j ih =>
    intro n x h
    obtain ⟨n, rfl⟩ : ∃ m, n = m + 1 := ⟨n - 1, by omega⟩
    rw [leBytes, List.take_succ_cons, ih n _ (by omega), leBytes]

theorem leBytes_drop (j : ℕ) : ∀ (n x : ℕ), (leBytes (j + n) x).drop j = leBytes n (x / 256 ^ j) := by
  induction j with
  | zero => intro n x; simp
  | succ j ih =>
    intro n x
    rw [show j + 1 + n = (j + n) + 1 by omega, leBytes, List.drop_succ_cons, ih, Nat.div_div_eq_div_mul, pow_succ, Nat.mul_comm]

theorem leVal_append (a b : Bytes) : leVal (a ++ b) = leVal a + 256 ^ a.length * leVal b := by
  induction a with
  | nil => simp [leVal]
  | cons x a ih =>
    rw [List.cons_append, leVal, ih, leVal, List.length_cons, pow_succ]
    ring

theorem pow256 (j : ℕ) : (256 : ℕ) ^ j = 2 ^ (8 * j) := by rw [pow_mul]; norm_num

theorem mixWord_toNat {j : ℕ} (hj : j ≤ 8) (a b : U64) : (mixWord j a b).toNat = a.toNat % 256 ^ j + 256 ^ j * (b.toNat / 256 ^ j) := by
  rw [mixWord, BitVec.toNat_ofNat]
  apply Nat.mod_eq_of_lt
  have h1 : a.toNat % 256 ^ j < 256 ^ j := Nat.mod_lt _ (by positivity)
  have h2 : b.toNat / 256 ^ j < 256 ^ (8 - j) := by
    rw [Nat.div_lt_iff_lt_mul (by positivity), ← pow_add, show 8 - j + j = 8 by omega]
    exact lt_of_lt_of_le b.isLt (by norm_num)
  have h3 : (256 : ℕ) ^ j * 256 ^ (8 - j) = 2 ^ 64 := by rw [← pow_add, show j + (8 - j) = 8 by omega]; norm_num
  calc _ < 256 ^ j + 256 ^ j * (b.toNat / 256 ^ j) := by omega
    _ = 256 ^ j * (b.toNat / 256 ^ j + 1) := by ring
    _ ≤ 256 ^ j * 256 ^ (8 - j) := Nat.mul_le_mul_left _ h2
    _ = 2 ^ 64 := h3

theorem mixWord_testBit {j : ℕ} (hj : j ≤ 8) (a b : U64) (i : ℕ) :
    (mixWord j a b).toNat.testBit i = if i < 8 * j then a.toNat.testBit i else b.toNat.testBit i := by
  rw [mixWord_toNat hj, pow256, Nat.add_comm, Nat.testBit_two_pow_mul_add _ (Nat.mod_lt _ (by positivity))]
  split
  · rw [Nat.testBit_mod_two_pow]; simp [*]
  · rw [Nat.testBit_div_two_pow]; congr 1; omega

theorem mixWord_xor {j : ℕ} (hj : j ≤ 8) (a b c d : U64) : mixWord j a b ^^^ mixWord j c d = mixWord j (a ^^^ c) (b ^^^ d) := by
  apply BitVec.eq_of_toNat_eq
  apply Nat.eq_of_testBit_eq
  intro i
  rw [BitVec.toNat_xor, Nat.testBit_xor, mixWord_testBit hj, mixWord_testBit hj, mixWord_testBit hj]
  split <;> rw [BitVec.toNat_xor, Nat.testBit_xor]

theorem mixWord_lt {j : ℕ} (hj : j ≤ 8) {a b : U64} {n : ℕ} (ha : a.toNat < 2 ^ n) (hb : b.toNat < 2 ^ n) : (mixWord j a b).toNat < 2 ^ n := by
  apply Nat.lt_pow_two_of_testBit
  intro i hi
  rw [mixWord_testBit hj]
  split
  · exact Nat.testBit_lt_two_pow (lt_of_lt_of_le ha (Nat.pow_le_pow_right (by norm_num) hi))
  · exact Nat.testBit_lt_two_pow (lt_of_lt_of_le hb (Nat.pow_le_pow_right (by norm_num) hi))

theorem rawWord_mix {j : ℕ} (hj : j ≤ 8) (a b : U64) : BitVec.ofNat 64 (leVal ((rawWord a).take j ++ (rawWord b).drop j)) = mixWord j a b := by
  rw [rawWord, rawWord, leBytes_take j 8 _ hj, show leBytes 8 b.toNat = leBytes (j + (8 - j)) b.toNat by rw [show j + (8 - j) = 8 by omega],
    leBytes_drop, leVal_append, leBytes_length, leVal_leBytes, leVal_leBytes, mixWord]
  congr 3
  apply Nat.mod_eq_of_lt
  rw [Nat.div_lt_iff_lt_mul (by positivity), ← pow_add, show 8 - j + j = 8 by omega]
  exact lt_of_lt_of_le b.isLt (by norm_num)

theorem encInt_concat (subs : List (Bytes × U64)) (e : Bytes × U64) :
    encIntShares (subs ++ [e]) = ((subs.map fun e => e.1 ++ rawWord e.2) ++ [e.1 ++ rawWord e.2]).flatten := by
  simp [encIntShares]

theorem int_rec {k : Bytes} (h : k.length = pkLength) (v : Bytes) (hv : v.length = 8) :
    recKey (k ++ v) = k ∧ recWord (k ++ v) = BitVec.ofNat 64 (leVal v) := by
  constructor
  · rw [recKey, List.take_left' h]
  · rw [recWord, List.drop_left' h, ← hv, List.take_length]

theorem int_recs {subs : List (Bytes × U64)} (hk : Keyed subs) :
    (subs.map fun e => e.1 ++ rawWord e.2).map (fun r => (recKey r, recWord r)) = subs := by
  rw [List.map_map]
  conv_rhs => rw [← List.map_id subs]
  refine List.map_congr_left fun e he => ?_
  obtain ⟨h1, h2⟩ := int_rec (hk e he) (rawWord e.2) (rawWord_length _)
  simp only [Function.comp, h1, h2, id_eq]
  rw [rawWord, word_roundtrip]

theorem int_lengths {subs : List (Bytes × U64)} (hk : Keyed subs) : ∀ r ∈ subs.map fun e => e.1 ++ rawWord e.2, r.length = intShareSize := by
  intro r hr
  obtain ⟨e, he, rfl⟩ := List.mem_map.1 hr
  rw [List.length_append, hk e he, rawWord_length]; rfl

/-- C57. The connection ends between two records after at least one: the loop sees the complete records, then the last one again and again. -/
theorem C57_boundary_records (subs : List (Bytes × U64)) (e : Bytes × U64) (hk : Keyed (subs ++ [e])) (k : ℕ) :
    intRecords (subs.length + 1 + k) (encIntShares (subs ++ [e])) = some (subs ++ [e] ++ List.replicate k e) := by
  have hk' : Keyed subs := fun x hx => hk x (List.mem_append_left _ hx)
  have he : Keyed [e] := fun x hx => hk x (List.mem_append_right _ hx)
  have hcut := recordLoop_cut intShareSize (subs.map fun e => e.1 ++ rawWord e.2) (int_lengths hk') (e.1 ++ rawWord e.2) [] (by decide) k none
    (int_lengths he _ (by simp))
  rw [List.length_map, List.append_nil, ← encInt_concat] at hcut
  rw [intRecords, hcut]
  have h1 := int_recs hk'
  have h2 : (recKey (e.1 ++ rawWord e.2), recWord (e.1 ++ rawWord e.2)) = e := by simpa using int_recs he
  simp only [Option.map_some, List.map_append, h1, List.map_cons, List.map_nil, h2, List.map_replicate, List.nil_append, List.length_nil, List.drop_zero]

/-- C57. The connection ends inside a record, `j < 8` bytes after its key: the loop sees the complete records, then again and again the new key
with a word made of the `j` bytes that arrived and the rest of the previous client's word. -/
theorem C57_mid_value_records (subs : List (Bytes × U64)) (e : Bytes × U64) (hk : Keyed (subs ++ [e])) (f : Bytes × U64) (hf : f.1.length = pkLength)
    {j : ℕ} (hj : j < 8) (k : ℕ) :
    intRecords (subs.length + 1 + k) (encIntShares (subs ++ [e]) ++ (f.1 ++ (rawWord f.2).take j)) =
      some (subs ++ [e] ++ List.replicate k (f.1, mixWord j f.2 e.2)) := by
  have hk' : Keyed subs := fun x hx => hk x (List.mem_append_left _ hx)
  have he : Keyed [e] := fun x hx => hk x (List.mem_append_right _ hx)
  have hpl : (f.1 ++ (rawWord f.2).take j).length = pkLength + j := by
    rw [List.length_append, hf, List.length_take, rawWord_length]; omega
  have hcut := recordLoop_cut intShareSize (subs.map fun e => e.1 ++ rawWord e.2) (int_lengths hk') (e.1 ++ rawWord e.2)
    (f.1 ++ (rawWord f.2).take j) (by rw [hpl]; show 32 + j < 40; omega) k none (int_lengths he _ (by simp))
  rw [List.length_map, ← encInt_concat] at hcut
  rw [intRecords, hcut]
  have h1 := int_recs hk'
  have h2 : (recKey (e.1 ++ rawWord e.2), recWord (e.1 ++ rawWord e.2)) = e := by simpa using int_recs he
  have h3 : (f.1 ++ (rawWord f.2).take j) ++ (e.1 ++ rawWord e.2).drop (f.1 ++ (rawWord f.2).take j).length =
      f.1 ++ ((rawWord f.2).take j ++ (rawWord e.2).drop j) := by
    rw [hpl, ← List.drop_drop, List.drop_left' (he e (by simp)), List.append_assoc]
  obtain ⟨h4, h5⟩ := int_rec hf ((rawWord f.2).take j ++ (rawWord e.2).drop j) (by
    rw [List.length_append, List.length_take, List.length_drop, rawWord_length, rawWord_length]; omega)
  rw [rawWord_mix (by omega)] at h5
  simp only [Option.map_some, List.map_append, h1, List.map_cons, List.map_nil, h2, List.map_replicate, h3, h4, h5]

/-- C57. The connection ends inside a key, after `i < 32` bytes: the loop goes on with a key that is half of the new and half of the
previous one, and the previous client's word. -/
theorem C57_mid_key_records (subs : List (Bytes × U64)) (e : Bytes × U64) (hk : Keyed (subs ++ [e])) (part : Bytes) (hp : part.length < pkLength)
    (k : ℕ) :
    intRecords (subs.length + 1 + k) (encIntShares (subs ++ [e]) ++ part) =
      some (subs ++ [e] ++ List.replicate k (part ++ e.1.drop part.length, e.2)) := by
  have hk' : Keyed subs := fun x hx => hk x (List.mem_append_left _ hx)
  have he : Keyed [e] := fun x hx => hk x (List.mem_append_right _ hx)
  have hel : e.1.length = pkLength := he e (by simp)
  have hcut := recordLoop_cut intShareSize (subs.map fun e => e.1 ++ rawWord e.2) (int_lengths hk') (e.1 ++ rawWord e.2)
    part (hp.trans (by decide)) k none (int_lengths he _ (by simp))
  rw [List.length_map, ← encInt_concat] at hcut
  rw [intRecords, hcut]
  have h1 := int_recs hk'
  have h2 : (recKey (e.1 ++ rawWord e.2), recWord (e.1 ++ rawWord e.2)) = e := by simpa using int_recs he
  have h3 : part ++ (e.1 ++ rawWord e.2).drop part.length = (part ++ e.1.drop part.length) ++ rawWord e.2 := by
    rw [List.drop_append_of_le_length (by omega), List.append_assoc]
  obtain ⟨h4, h5⟩ := int_rec (k := part ++ e.1.drop part.length) (by rw [List.length_append, List.length_drop]; omega) (rawWord e.2) (rawWord_length _)
  rw [rawWord, word_roundtrip] at h5
  rw [rawWord] at h3 h4
  simp only [rawWord] at h1 h2 ⊢
  simp only [Option.map_some, List.map_append, h1, List.map_cons, List.map_nil, h2, List.map_replicate, h3, h4, h5]

/-! ## What the servers answer -/

/-- The two halves of `int_sum` see only the list of records. -/
theorem intSum_of_records {nbits : ℕ} (hb : nbits < 64) {s0 s1 : Bytes} {subs0 subs1 : List (Bytes × U64)} (h0 : intRecords subs0.length s0 = some subs0)
    (h1 : intRecords subs1.length s1 = some subs1) (hk0 : Keyed subs0) (hk1 : Keyed subs1) (hlen : subs1.length < 2 ^ 32) (ord : Map U64 → Map U64)
    (ho : IsOrder ord) (junk : ℕ → U64) (raw : ℕ → ℕ → ℕ → U64) :
    Always (intSumOp0 nbits subs0.length s0 junk raw) (intSumOp1 nbits subs1.length s1 ord)
      (verdict (bothKeys (belowBits nbits) subs0 subs1).card subs0.length
        (BitVec.ofNat 64 (∑ k ∈ bothKeys (belowBits nbits) subs0 subs1, (intTerm (belowBits nbits) subs0 subs1 k).toNat))) .noAns := by
  have := C36_int_sum nbits hb subs0 subs1 [] [] hk0 hk1 hlen ord ho junk raw
  have e0 : intIntake nbits subs0.length s0 = intIntake nbits subs0.length (encIntShares subs0 ++ []) := by
    unfold intIntake; rw [h0, intRecords_stream subs0 hk0]
  have e1 : intIntake nbits subs1.length s1 = intIntake nbits subs1.length (encIntShares subs1 ++ []) := by
    unfold intIntake; rw [h1, intRecords_stream subs1 hk1]
  unfold intSumOp0 intSumOp1 at this ⊢
  rw [e0, e1]
  exact this

theorem firstOf_append {α : Type} (ok : α → Bool) (xs ys : List (Bytes × α)) (k : Bytes) :
    firstOf ok (xs ++ ys) k = (firstOf ok xs k).or (firstOf ok ys k) := by
  unfold firstOf
  rw [List.find?_append]
  cases List.find? (fun s => s.1 == k && ok s.2) xs <;> simp

theorem firstOf_pad {α : Type} (ok : α → Bool) (xs : List (Bytes × α)) (e : Bytes × α) (n : ℕ) (k : Bytes) :
    firstOf ok (xs ++ [e] ++ List.replicate n e) k = firstOf ok (xs ++ [e]) k := by
  rw [firstOf_append]
  by_cases h : (e.1 == k && ok e.2) = true
  · have : (firstOf ok (xs ++ [e]) k).isSome := by
      rw [firstOf, Option.isSome_map, List.find?_isSome]
      exact ⟨e, by simp, h⟩
    obtain ⟨v, hv⟩ := Option.isSome_iff_exists.1 this
    rw [hv]; rfl
  · have : firstOf ok (List.replicate n e) k = none := by
      rw [firstOf, Option.map_eq_none_iff, List.find?_eq_none]
      intro x hx
      rw [List.eq_of_mem_replicate hx]
      exact h
    rw [this, Option.or_none]

theorem bothKeys_pad {α : Type} (ok : α → Bool) (xs ys : List (Bytes × α)) (e f : Bytes × α) (n m : ℕ) :
    bothKeys ok (xs ++ [e] ++ List.replicate n e) (ys ++ [f] ++ List.replicate m f) = bothKeys ok (xs ++ [e]) (ys ++ [f]) := by
  ext k
  unfold bothKeys
  simp only [Finset.mem_filter, firstOf_pad, List.mem_toFinset, List.map_append, List.map_replicate, List.mem_append, List.map_cons, List.map_nil,
    List.mem_singleton, List.mem_replicate]
  constructor
  · rintro ⟨h | h, h'⟩
    · exact ⟨h, h'⟩
    · exact ⟨Or.inr h.2, h'⟩
  · rintro ⟨h, h'⟩
    exact ⟨Or.inl h, h'⟩

/-- C57, what holds: if both connections end between records (each after at least one), `int_sum` answers as C36 says for exactly the complete
records, while the announced number stays the one that matters for the threshold. Missing for the full property: ends inside a record. -/
theorem C57_boundary_int_sum_partial {nbits : ℕ} (hb : nbits < 64) (subs0 subs1 : List (Bytes × U64)) (e0 e1 : Bytes × U64)
    (hk0 : Keyed (subs0 ++ [e0])) (hk1 : Keyed (subs1 ++ [e1])) (k0 k1 : ℕ) (hlen : subs1.length + 1 + k1 < 2 ^ 32) (ord : Map U64 → Map U64)
    (ho : IsOrder ord) (junk : ℕ → U64) (raw : ℕ → ℕ → ℕ → U64) :
    Always (intSumOp0 nbits (subs0.length + 1 + k0) (encIntShares (subs0 ++ [e0])) junk raw)
      (intSumOp1 nbits (subs1.length + 1 + k1) (encIntShares (subs1 ++ [e1])) ord)
      (verdict (bothKeys (belowBits nbits) (subs0 ++ [e0]) (subs1 ++ [e1])).card (subs0.length + 1 + k0)
        (BitVec.ofNat 64 (∑ k ∈ bothKeys (belowBits nbits) (subs0 ++ [e0]) (subs1 ++ [e1]),
          (intTerm (belowBits nbits) (subs0 ++ [e0]) (subs1 ++ [e1]) k).toNat))) .noAns := by
  have pad : ∀ {subs : List (Bytes × U64)} {e : Bytes × U64} (k : ℕ), Keyed (subs ++ [e]) → Keyed (subs ++ [e] ++ List.replicate k e) := by
    intro subs e k hk x hx
    rcases List.mem_append.1 hx with h | h
    · exact hk x h
    · rw [List.eq_of_mem_replicate h]; exact hk e (by simp)
  have len : ∀ (subs : List (Bytes × U64)) (e : Bytes × U64) (k : ℕ), (subs ++ [e] ++ List.replicate k e).length = subs.length + 1 + k := by
    intro subs e k; simp; omega
  have h := intSum_of_records hb (s0 := encIntShares (subs0 ++ [e0])) (s1 := encIntShares (subs1 ++ [e1]))
    (subs0 := subs0 ++ [e0] ++ List.replicate k0 e0) (subs1 := subs1 ++ [e1] ++ List.replicate k1 e1)
    (by rw [len]; exact C57_boundary_records subs0 e0 hk0 k0) (by rw [len]; exact C57_boundary_records subs1 e1 hk1 k1) (pad k0 hk0) (pad k1 hk1)
    (by rw [len]; exact hlen) ord ho junk raw
  rw [len, len, bothKeys_pad] at h
  simpa only [intTerm, firstOf_pad] using h

/-- An honest submission of INT_SUM: XOR shares of a value below 2^nbits. -/
structure IntClient (nbits : ℕ) where
  pk : Bytes
  value : U64
  share : U64
  keyed : pk.length = pkLength
  value_lt : value.toNat < 2 ^ nbits
  share_lt : share.toNat < 2 ^ nbits

/-- C57 is false inside a record. Honest clients `cs` and `a` have been read by both servers; the next client `b` disconnects `j < 8` bytes after
its key. The servers then count `b` with a value made of the low `j` bytes of its value and the rest of the value of `a`. -/
theorem C57_false_int_sum {nbits : ℕ} (hb : nbits < 64) (cs : List (IntClient nbits)) (a b : IntClient nbits)
    (hn : ((cs ++ [a, b]).map (·.pk)).Nodup) (hlen : cs.length + 2 < 2 ^ 32) {j : ℕ} (hj : j < 8) (ord : Map U64 → Map U64)
    (ho : IsOrder ord) (junk : ℕ → U64) (raw : ℕ → ℕ → ℕ → U64) :
    Always (intSumOp0 nbits (cs.length + 2)
        (encIntShares ((cs ++ [a]).map fun c => (c.pk, c.share)) ++ (b.pk ++ (rawWord b.share).take j)) junk raw)
      (intSumOp1 nbits (cs.length + 2)
        (encIntShares ((cs ++ [a]).map fun c => (c.pk, c.share ^^^ c.value)) ++ (b.pk ++ (rawWord (b.share ^^^ b.value)).take j)) ord)
      (.ans (BitVec.ofNat 64 (((cs ++ [a]).map fun c => c.value.toNat).sum + (mixWord j b.value a.value).toNat))) .noAns := by
  have hxl : ∀ c : IntClient nbits, (c.share ^^^ c.value).toNat < 2 ^ nbits := by
    intro c; rw [BitVec.toNat_xor]; exact Nat.xor_lt_two_pow c.share_lt c.value_lt
  -- the client the servers see in place of `b`
  let b' : IntClient nbits := ⟨b.pk, mixWord j b.value a.value, mixWord j b.share a.share, b.keyed, mixWord_lt (by omega) b.value_lt a.value_lt,
    mixWord_lt (by omega) b.share_lt a.share_lt⟩
  have hb' : b'.share ^^^ b'.value = mixWord j (b.share ^^^ b.value) (a.share ^^^ a.value) := mixWord_xor (by omega) _ _ _ _
  set S0 : List (Bytes × U64) := (cs ++ [a, b']).map fun c => (c.pk, c.share) with hS0
  set S1 : List (Bytes × U64) := (cs ++ [a, b']).map fun c => (c.pk, c.share ^^^ c.value) with hS1
  have hn' : ((cs ++ [a, b']).map (·.pk)).Nodup := by simpa using hn
  have l0 : S0.length = cs.length + 2 := by simp [hS0]
  have l1 : S1.length = cs.length + 2 := by simp [hS1]
  have k0 : Keyed S0 := by
    intro e he; obtain ⟨c, -, rfl⟩ := List.mem_map.1 he; exact c.keyed
  have k1 : Keyed S1 := by
    intro e he; obtain ⟨c, -, rfl⟩ := List.mem_map.1 he; exact c.keyed
  have r0 := C57_mid_value_records (cs.map fun c => (c.pk, c.share)) (a.pk, a.share)
    (fun e he => k0 e (by rw [hS0, List.map_append]; rcases List.mem_append.1 he with h | h <;> simp_all)) (b.pk, b.share) b.keyed hj 1
  have r1 := C57_mid_value_records (cs.map fun c => (c.pk, c.share ^^^ c.value)) (a.pk, a.share ^^^ a.value)
    (fun e he => k1 e (by rw [hS1, List.map_append]; rcases List.mem_append.1 he with h | h <;> simp_all)) (b.pk, b.share ^^^ b.value) b.keyed hj 1
  have h := intSum_of_records hb (subs0 := S0) (subs1 := S1)
    (s0 := encIntShares ((cs ++ [a]).map fun c => (c.pk, c.share)) ++ (b.pk ++ (rawWord b.share).take j))
    (s1 := encIntShares ((cs ++ [a]).map fun c => (c.pk, c.share ^^^ c.value)) ++ (b.pk ++ (rawWord (b.share ^^^ b.value)).take j))
    (by rw [l0]; simpa [hS0, b'] using r0) (by rw [l1]; simpa [hS1, ← hb', b'] using r1) k0 k1 (by omega) ord ho junk raw
  obtain ⟨hf, hbk⟩ := bothKeys_honest_ok (ok := belowBits nbits) (cs ++ [a, b']) (·.pk) (·.share) (fun c => c.share ^^^ c.value) hn'
    (fun c _ => decide_eq_true c.share_lt) (fun c _ => decide_eq_true (hxl c)) S0 S1 (List.Perm.refl _) (List.Perm.refl _)
  have hsum : ∑ k ∈ bothKeys (belowBits nbits) S0 S1, (intTerm (belowBits nbits) S0 S1 k).toNat =
      ((cs ++ [a]).map fun c => c.value.toNat).sum + (mixWord j b.value a.value).toNat := by
    rw [hbk, List.sum_toFinset _ hn', List.map_map]
    have e : (cs ++ [a, b']).map ((fun k => (intTerm (belowBits nbits) S0 S1 k).toNat) ∘ fun c => c.pk) =
        (cs ++ [a, b']).map fun c => c.value.toNat := by
      refine List.map_congr_left fun c hc => ?_
      simp only [Function.comp, intTerm, (hf c hc).1, (hf c hc).2, Option.getD_some]
      rw [← BitVec.xor_assoc, BitVec.xor_self, BitVec.zero_xor]
    rw [e]
    simp [b', Nat.add_assoc]
  have hcard : (bothKeys (belowBits nbits) S0 S1).card = cs.length + 2 := by
    rw [hbk, List.toFinset_card_of_nodup hn', List.length_map]; simp
  rw [hsum, hcard, l0, l1, verdict, if_neg (by omega)] at h
  exact h

/-- The claim fails: one client with value 5; the second, with value 1, disconnects after its key. The answer is 10. -/
theorem C57_false_witness (ord : Map U64 → Map U64) (ho : IsOrder ord) (junk : ℕ → U64) (raw : ℕ → ℕ → ℕ → U64) :
    Always (intSumOp0 4 2 (encIntShares [(List.replicate 32 1#8, 9#64)] ++ List.replicate 32 2#8) junk raw)
      (intSumOp1 4 2 (encIntShares [(List.replicate 32 1#8, 12#64)] ++ List.replicate 32 2#8) ord) (.ans 10#64) .noAns := by
  have := C57_false_int_sum (nbits := 4) (by norm_num) [] ⟨List.replicate 32 1#8, 5#64, 9#64, rfl, by decide, by decide⟩
    ⟨List.replicate 32 2#8, 1#64, 3#64, rfl, by decide, by decide⟩ (by decide) (by norm_num) (j := 0) (by norm_num) ord ho junk raw
  simpa [mixWord] using this

/-- C57 is false for `xor_op` too, and worse: a client `b` that disconnects right after its key cancels the client `a` before it. The answer is that
for the clients `cs` alone, so one disconnect turns an OR from true to false or an AND from false to true. -/
theorem C57_false_xor_op (isAnd : Bool) (cs : List XorClient) (a : XorClient) (bpk : Bytes)
    (hn : ((cs ++ [a]).map (·.pk) ++ [bpk]).Nodup) (hl : ∀ c ∈ cs ++ [a], c.pk.length = pkLength) (hlb : bpk.length = pkLength)
    (hlen : cs.length + 2 < 2 ^ 32) (ord : Map U64 → Map U64) (ho : IsOrder ord) :
    Always (xorOpOp0 isAnd (cs.length + 2) (encIntShares ((cs ++ [a]).map fun c => (c.pk, (clientXor isAnd c.value c.rand c.share0).1)) ++ bpk))
      (xorOpOp1 (cs.length + 2) (encIntShares ((cs ++ [a]).map fun c => (c.pk, (clientXor isAnd c.value c.rand c.share0).2)) ++ bpk) ord)
      (.ans (if xorRands isAnd cs = 0#64 then isAnd else !isAnd)) .noAns := by
  let b : XorClient := ⟨bpk, a.value, a.rand, a.share0⟩
  have hn' : ((cs ++ [a, b]).map (·.pk)).Nodup := by simpa [b] using hn
  have hl' : ∀ c ∈ cs ++ [a, b], c.pk.length = pkLength := by
    intro c hc
    have : c ∈ cs ++ [a] ∨ c = b := by simpa [or_assoc] using hc
    rcases this with h | rfl
    · exact hl c h
    · exact hlb
  have ha : a.pk.length = pkLength := hl a (by simp)
  have hmix : ∀ x y : U64, mixWord 0 x y = y := by intro x y; simp [mixWord, Nat.mod_one]
  have recs : ∀ F : XorClient → U64, F b = F a → intRecords (cs.length + 2) (encIntShares ((cs ++ [a]).map fun c => (c.pk, F c)) ++ bpk) =
      some ((cs ++ [a, b]).map fun c => (c.pk, F c)) := by
    intro F hF
    have := C57_mid_value_records (cs.map fun c => (c.pk, F c)) (a.pk, F a) (by
      intro e he
      have : e ∈ (cs ++ [a]).map fun c => (c.pk, F c) := by simpa using he
      obtain ⟨c, hc, rfl⟩ := List.mem_map.1 this
      exact hl c hc) (bpk, 0#64) hlb (j := 0) (by norm_num) 1
    rw [hmix] at this
    simpa [hF, b] using this
  have h := C37_honest isAnd (cs ++ [a, b]) hn' hl' (by simpa using hlen) _ _ (List.Perm.refl _) (List.Perm.refl _) [] [] ord ho
  have k : ∀ F : XorClient → U64, Keyed ((cs ++ [a, b]).map fun c => (c.pk, F c)) := by
    intro F e he
    obtain ⟨c, hc, rfl⟩ := List.mem_map.1 he
    exact hl' c hc
  have el : (cs ++ [a, b]).length = cs.length + 2 := by simp
  have full : ∀ F : XorClient → U64, F b = F a → xorIntake (cs ++ [a, b]).length (encIntShares ((cs ++ [a, b]).map fun c => (c.pk, F c)) ++ []) =
      xorIntake (cs.length + 2) (encIntShares ((cs ++ [a]).map fun c => (c.pk, F c)) ++ bpk) := by
    intro F hF
    unfold xorIntake
    rw [recs F hF]
    have := intRecords_stream ((cs ++ [a, b]).map fun c => (c.pk, F c)) (k F) []
    rw [List.length_map] at this
    rw [this]
  have hr : xorRands isAnd (cs ++ [a, b]) = xorRands isAnd cs := by
    unfold xorRands
    rw [List.filter_append, List.map_append, xorAll_append]
    by_cases hv : (a.value != isAnd) = true
    · rw [List.filter_cons, if_pos hv, List.filter_cons, if_pos hv]
      simp [xorAll, b]
    · rw [List.filter_cons, if_neg hv, List.filter_cons, if_neg hv]
      simp [xorAll]
  unfold xorOpOp0 xorOpOp1 at h ⊢
  rw [full (fun c => (clientXor isAnd c.value c.rand c.share0).1) rfl, full (fun c => (clientXor isAnd c.value c.rand c.share0).2) rfl, hr, el] at h
  exact h

/-- OR of true, then a disconnect: the answer is false. -/
theorem C57_false_or_witness (ord : Map U64 → Map U64) (ho : IsOrder ord) :
    Always (xorOpOp0 false 2 (encIntShares [(List.replicate 32 1#8, 9#64)] ++ List.replicate 32 2#8))
      (xorOpOp1 2 (encIntShares [(List.replicate 32 1#8, 12#64)] ++ List.replicate 32 2#8) ord) (.ans false) .noAns := by
  have := C57_false_xor_op false [] ⟨List.replicate 32 1#8, true, 5#64, 9#64⟩ (List.replicate 32 2#8) (by decide) (by decide) rfl (by norm_num) ord ho
  simpa [clientXor, xorEncode, xorRands, xorAll] using this

/-! ## `BitShare` records -/

/-- C57 for `bit_sum`: an end between records uses exactly the complete ones. -/
theorem C57_boundary_bit_partial (subs : List (Bytes × Bool)) (e : Bytes × Bool) (hk : Keyed (subs ++ [e])) (k : ℕ) :
    ((recordLoop bitShareSize (subs.length + 1 + k) none (encBitShares (subs ++ [e]))).bind fun rs => bitIntake rs []) =
      some (admit (fun _ => true) (subs ++ [e]) []) := by
  have len : ∀ x : Bytes × Bool, x ∈ subs ++ [e] → (x.1 ++ encBool x.2).length = bitShareSize := by
    intro x hx; rw [List.length_append, hk x hx]; rfl
  have hcut := recordLoop_cut bitShareSize (subs.map fun e => e.1 ++ encBool e.2) (by
    intro r hr; obtain ⟨x, hx, rfl⟩ := List.mem_map.1 hr; exact len x (List.mem_append_left _ hx)) (e.1 ++ encBool e.2) [] (by decide) k none
    (len e (by simp))
  rw [List.length_map, List.append_nil, show ((subs.map fun e => e.1 ++ encBool e.2) ++ [e.1 ++ encBool e.2]).flatten = encBitShares (subs ++ [e]) by
    simp [encBitShares]] at hcut
  rw [hcut, Option.bind_some, List.nil_append, List.length_nil, List.drop_zero]
  have hm : (subs.map fun e => e.1 ++ encBool e.2) ++ [e.1 ++ encBool e.2] ++ List.replicate k (e.1 ++ encBool e.2) =
      (subs ++ [e] ++ List.replicate k e).map fun e => e.1 ++ encBool e.2 := by simp
  rw [hm, C34_bit_intake _ (by
    intro x hx
    rcases List.mem_append.1 hx with h | h
    · exact hk x h
    · rw [List.eq_of_mem_replicate h]; exact hk e (by simp)) []]
  congr 1
  clear hcut hm
  induction k with
  | zero => simp
  | succ k ih =>
    rw [List.replicate_succ', ← List.append_assoc]
    rw [C34_later_ignored (fun _ => true) _ [] e.1 e.2 (Or.inl ⟨e.2, by simp, rfl⟩), List.append_nil]
    exact ih

/-- C57 is false for `bit_sum` too: an end right after a new key stores that key with the previous client's bit. -/
theorem C57_false_bit (subs : List (Bytes × Bool)) (e : Bytes × Bool) (hk : Keyed (subs ++ [e])) (key : Bytes) (hkey : key.length = pkLength)
    (hnew : key ∉ (subs ++ [e]).map (·.1)) :
    ((recordLoop bitShareSize (subs.length + 1 + 1) none (encBitShares (subs ++ [e]) ++ key)).bind fun rs => bitIntake rs []) =
      some (admit (fun _ => true) (subs ++ [e]) [] ++ [(key, e.2)]) := by
  have len : ∀ x : Bytes × Bool, x ∈ subs ++ [e] → (x.1 ++ encBool x.2).length = bitShareSize := by
    intro x hx; rw [List.length_append, hk x hx]; rfl
  have hcut := recordLoop_cut bitShareSize (subs.map fun e => e.1 ++ encBool e.2) (by
    intro r hr; obtain ⟨x, hx, rfl⟩ := List.mem_map.1 hr; exact len x (List.mem_append_left _ hx)) (e.1 ++ encBool e.2) key
    (by rw [hkey]; decide) 1 none (len e (by simp))
  rw [List.length_map, show ((subs.map fun e => e.1 ++ encBool e.2) ++ [e.1 ++ encBool e.2]).flatten = encBitShares (subs ++ [e]) by
    simp [encBitShares]] at hcut
  have he : e.1.length = pkLength := hk e (by simp)
  have hm : (subs.map fun e => e.1 ++ encBool e.2) ++ [e.1 ++ encBool e.2] ++ List.replicate 1 (key ++ (e.1 ++ encBool e.2).drop key.length) =
      (subs ++ [e] ++ [(key, e.2)]).map fun e => e.1 ++ encBool e.2 := by
    rw [hkey, List.drop_left' he]; simp
  rw [hcut, Option.bind_some, hm, C34_bit_intake _ (by
    intro x hx
    rcases List.mem_append.1 hx with h | h
    · exact hk x h
    · rw [List.mem_singleton.1 h]; exact hkey) [], admit_append]
  congr 1
  have hnone : (admit (fun _ => true) (subs ++ [e]) []).lookup key = none := by
    rw [C34_first_admissible, firstOf, Option.map_eq_none_iff, List.find?_eq_none]
    intro x hx
    simp only [Bool.and_true, beq_iff_eq]
    rintro rfl
    exact hnew (List.mem_map.2 ⟨x, hx, rfl⟩)
  rw [admit, if_neg (by rw [hnone]; simp)]
  rfl

example : Keyed ([(List.replicate 32 1#8, true)] ++ [(List.replicate 32 3#8, false)]) ∧
    List.replicate 32 2#8 ∉ ([(List.replicate 32 1#8, true)] ++ [(List.replicate 32 3#8, false)]).map (·.1) := by
  constructor
  · unfold Keyed; decide
  · decide

end Verif

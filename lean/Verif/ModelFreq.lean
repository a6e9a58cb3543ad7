import Verif.ModelVar

/-!
# server.cpp: `freq_op`, and the client side of it

`nbits[]` (server.cpp:1207-1209) is filled and never used. `pk_list` is written and never read, but it is an array of
`total_inputs` strings, so a write behind it counts (`recvKeysInto`).
-/

namespace Verif

/-- `const uint64_t max_inp = 1 << num_bits` (server.cpp:1203), computed in `int`: undefined from 32 bits on; 31 bits give a
negative `int`, hence an array `nbits` of about 2^64 elements on the stack, which is undefined too. -/
def freqWidth (nbits : ℕ) : Option ℕ := if nbits ≤ 30 then some (2 ^ nbits) else none

/-- One submission (server.cpp:1218-1221): key and packed bits. -/
def rdFreqShare (w : ℕ) : Rd (Bytes × List Bool) :=
  .get pkLength fun pk => (rdBools w).bind fun b => .ret (pk, b)

/-- The map built by `freq_op` (server.cpp:1212-1229). `none` also if the stream ends early (`ModelCut`). -/
def freqIntake (w total : ℕ) (stream : Bytes) : Option (Map (List Bool)) :=
  (((rdFreqShare w).rep total).run stream).map fun r => admit (fun _ => true) r.1 []

/-- The loop `pk_list[i] = get_pk(serverfd)` of server 0 (server.cpp:1323-1325) for the remaining `n` keys from index `i` on;
`pk_list` has `cap` elements. -/
def recvKeysInto (cap : ℕ) : ℕ → ℕ → Proc (List Bytes)
  | _, 0 => .ret []
  | i, n + 1 => (Rd.get pkLength .ret).toProc.bind fun k =>
    if i < cap then (recvKeysInto cap (i + 1) n).bind fun ks => .ret (k :: ks) else .fault

/-- The row of server 0 for an announced key (server.cpp:1326-1333): zeros if the key is unknown. -/
def freqRow0 (w : ℕ) (m : Map (List Bool)) (k : Bytes) : List Bool := (m.lookup k).getD (List.replicate w false)

/-- `valid[i] ^= shares[i * max_inp + j]` over a row, `total_parity ^= valid[i]` over the rows (server.cpp:1262-1275). -/
def parityOf (bs : List Bool) : Bool := bs.foldl (fun a b => a ^^ b) false

/-- `sums[i] += shares_p[..]` modulo `Int_Modulus` over a row, `sum += sums[i]` over the rows (server.cpp:1263-1278). -/
def modSum (xs : List ℤ) : ℤ := xs.foldl (fun s x => fmod (s + x) intModulus) 0

/-- `b2a_daBit_single(num_inputs * max_inp, shares)` (server.cpp:1254, 1339). The loops inside count with `unsigned int` and never
end from 2^32 on (undefined). -/
def freqConvert (c : StoreCfg) (g : StoreRng) (sv : Bool) (rows : List (List Bool)) (st : Store) : Proc (List ℤ × Store) :=
  if rows.flatten.length < 2 ^ 32 then b2aSingle intModulus c g sv rows.flatten st else .fault

/-- `freq_op` at server 1 after reading the submissions (server.cpp:1238-1311). -/
def freq1 (c : StoreCfg) (g : StoreRng) (w : ℕ) (ord : Map (List Bool)) (st : Store) : Proc (Ret (List ℤ) × Store) :=
  (announce (ord.map (·.1))).bind fun _ =>
  (freqConvert c g true (ord.map (·.2)) st).bind fun a =>
  let rows := pieces w ord.length a.1
  let parity := ord.map fun e => parityOf e.2
  let sums := rows.map modSum
  (Proc.put (encBool (parityOf parity))).bind fun _ =>
  (Proc.putOpt (encFmpz (modSum sums))).bind fun _ =>
  rdBool.toProc.bind fun allValid =>
  (if allValid then .ret (List.replicate ord.length true) else
    (Proc.put (encBools parity)).bind fun _ => (Proc.putOpt (encFmpzs sums)).bind fun _ => (rdBools ord.length).toProc).bind fun valid =>
  (Proc.putOpt (encFmpzs (accumulate w rows valid))).bind fun _ => .ret (.noAns, a.2)

/-- The individual check at server 0 for one row (server.cpp:1380-1392). -/
def freqRowValid (matched parity parity' : Bool) (sum sum' : ℤ) : Bool :=
  matched && (parity ^^ parity') && decide (fmod (sum + sum') intModulus = 1)

/-- The individual check along the arrays (server.cpp:1380-1392). -/
def freqValid : List Bool → List Bool → List Bool → List ℤ → List ℤ → List Bool
  | v :: vs, a :: as, b :: bs, s :: ss, t :: ts => freqRowValid v a b s t :: freqValid vs as bs ss ts
  | _, _, _, _, _ => []

/-- The batch check of server 0 (server.cpp:1361-1371). -/
def batchValid (total : ℕ) (parity parity' : Bool) (sum sum' : ℤ) : Bool :=
  ((parity ^^ parity') == decide (total % 2 = 1)) && decide (fmod (sum + sum') intModulus = total)

/-- `freq_op` at server 0 after reading the submissions (server.cpp:1312-1444). The validity vector is sent in both branches
(line 1401). -/
def freq0 (c : StoreCfg) (g : StoreRng) (w total : ℕ) (m : Map (List Bool)) (st : Store) : Proc (Ret (List ℤ) × Store) :=
  rdSize.toProc.bind fun n => (recvKeysInto total 0 n.toNat).bind fun ks =>
  let vecs := ks.map (freqRow0 w m)
  (freqConvert c g false vecs st).bind fun a =>
  let rows := pieces w ks.length a.1
  let parity := vecs.map parityOf
  let sums := rows.map modSum
  rdBool.toProc.bind fun parity' => rdFmpz.toProc.bind fun sum' =>
  let allValid := batchValid total (parityOf parity) parity' (modSum sums) sum'
  (Proc.put (encBool allValid)).bind fun _ =>
  (if allValid then .ret (List.replicate ks.length true) else
    (rdBools ks.length).toProc.bind fun parities' => (rdFmpzs ks.length).toProc.bind fun sums' =>
      .ret (freqValid (matched m ks) parity parities' sums sums')).bind fun valid =>
  (Proc.put (encBools valid)).bind fun _ =>
  (rdFmpzs w).toProc.bind fun other =>
  .ret (finish (numTrue valid) total
    (List.zipWith (fun x y => fmod (x + y) intModulus) (accumulate w rows valid) other), a.2)

/-- The whole of `freq_op` (server.cpp:1196-1445) for server 0. -/
def freqOp0 (c : StoreCfg) (g : StoreRng) (nbits total : ℕ) (stream : Bytes) (st : Store) : Proc (Ret (List ℤ) × Store) :=
  (Proc.ofOption (freqWidth nbits)).bind fun w => (Proc.ofOption (freqIntake w total stream)).bind fun m => freq0 c g w total m st

/-- The whole of `freq_op` for server 1; `ord` gives the iteration order of a map. -/
def freqOp1 (c : StoreCfg) (g : StoreRng) (nbits total : ℕ) (stream : Bytes) (ord : Map (List Bool) → Map (List Bool)) (st : Store) :
    Proc (Ret (List ℤ) × Store) :=
  (Proc.ofOption (freqWidth nbits)).bind fun w => (Proc.ofOption (freqIntake w total stream)).bind fun m => freq1 c g w (ord m) st

/-- The two shares of an honest client (client.cpp:1422-1433); `max_int = 1ULL << num_bits` (client.cpp:1505). -/
def clientFreq (nbits : ℕ) (rawReal : U64) (arr : List Bool) : List Bool × List Bool :=
  let v := (rawReal % (1#64 <<< nbits)).toNat
  (arr, arr.set v (!arr.getD v false))

/-- The bytes of a run after the initial message (client.cpp:70-75, 1449-1451). -/
def encFreqShares (subs : List (Bytes × List Bool)) : Bytes := (subs.map fun e => e.1 ++ encBools e.2).flatten

end Verif

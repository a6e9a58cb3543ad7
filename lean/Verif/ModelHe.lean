import Verif.ModelNet
import Verif.ModelProc
import Verif.ModelShare
import Verif.ModelConstants
import Verif.ModelFmpz
import Mathlib.Data.ZMod.Basic

/-!
# Arithmetic triples from homomorphic encryption

`he_triples.cpp` (marked deprecated in the sources, reached by test/test_he_triples.cpp). PALISADE's BFVrns is described by `PackedHe`: an ideal
packed encryption of one multiplicative level.
-/

namespace Verif

/-- What slot `j` of a packed plaintext holds (`MakePackedPlaintext`, he_triples.cpp:119-121): the rest of the slots is zero. -/
def slotVal (p : ℕ) (vs : List ℤ) (j : ℕ) : ZMod p := ((vs.getD j 0 : ℤ) : ZMod p)

/-- PALISADE as used in he_triples.cpp:60-67, 119-123, 132-133, 141-144, with plaintext modulus `p`. `Is k l c f`: the ciphertext `c` under the
public key `k` holds the slots `f` after `l` multiplications. `R` is the randomness of an encryption. `get s c j` is the entry `j` of
`GetPackedValue` after `Decrypt`: some representative modulo `p`. Serialised objects are not empty and shorter than 4 GiB (`send_size` sends 32 bits). -/
structure PackedHe (p : ℕ) where
  Pk : Type
  Sk : Type
  Ct : Type
  R : Type
  slots : ℕ
  enc : Pk → R → List ℤ → Ct
  mulPlain : Ct → List ℤ → Ct
  sub : Ct → Ct → Ct
  get : Sk → Ct → ℕ → ℤ
  serPk : Pk → Bytes
  dePk : Bytes → Option Pk
  serCt : Ct → Bytes
  deCt : Bytes → Option Ct
  KeyPair : Pk → Sk → Prop
  Is : Pk → ℕ → Ct → (ℕ → ZMod p) → Prop
  slots_big : 8192 ≤ slots
  enc_is : ∀ k r vs, vs.length ≤ slots → Is k 0 (enc k r vs) (slotVal p vs)
  mul_is : ∀ k c f vs, Is k 0 c f → vs.length ≤ slots → Is k 1 (mulPlain c vs) fun j => f j * slotVal p vs j
  sub_is : ∀ k c f c' f', Is k 1 c f → Is k 0 c' f' → Is k 1 (sub c c') fun j => f j - f' j
  get_is : ∀ k s c f, KeyPair k s → Is k 1 c f → ∀ j < slots, ((get s c j : ℤ) : ZMod p) = f j
  dePk_ser : ∀ k, dePk (serPk k) = some k
  deCt_ser : ∀ c, deCt (serCt c) = some c
  serPk_len : ∀ k, 0 < (serPk k).length ∧ (serPk k).length < 2 ^ 32
  serCt_len : ∀ c, 0 < (serCt c).length ∧ (serCt c).length < 2 ^ 32

/-- `MAX_HE_BATCH` (he_triples.h:16). -/
def maxHeBatch : ℕ := 8192
/-- `num_batches` (he_triples.cpp:94). -/
def heBatches (n : ℕ) : ℕ := (n - 1) / maxHeBatch + 1
/-- `N` (he_triples.cpp:95, 106, 138): all batches are full, except possibly the last. -/
def heBatchLen (n i : ℕ) : ℕ := if i = heBatches n - 1 then (n - 1) % maxHeBatch + 1 else maxHeBatch

/-- The three numbers drawn for one triple (he_triples.cpp:112-114). -/
structure HeDraw where
  a : ℤ
  b : ℤ
  d : ℤ
  deriving DecidableEq, Repr

/-- Batch `i` of the local random values (he_triples.cpp:105-115). `rnd` is the sequence of values of `random_int`, `pos` how many were used before the
call; the batches before `i` have used theirs. -/
def heDraws (rnd : ℕ → ℤ) (pos n i : ℕ) : List HeDraw :=
  let q := pos + 3 * ((List.range i).map (heBatchLen n)).sum
  (List.range (heBatchLen n i)).map fun j => ⟨rnd (q + 3 * j), rnd (q + 3 * j + 1), rnd (q + 3 * j + 2)⟩

/-- One turn of the receiving loop of `serializedSwap` (he_triples.cpp:38-43). An object that cannot be deserialised makes PALISADE throw. -/
def rdSerial {T : Type} (de : Bytes → Option T) : Rd T :=
  (rdString []).bind fun s => match de s.2 with
    | some t => .ret t
    | none => .bad

/-- `serializedSwap` (he_triples.cpp:19-48): the child sends all objects, the parent receives as many. -/
def heSwap {T : Type} (ser : T → Bytes) (de : Bytes → Option T) (mine : List T) : Proc (List T) :=
  exch (mine.flatMap fun t => (encString (ser t)).2) ((rdSerial de).rep mine.length)

/-- The triple made in slot `j` (he_triples.cpp:147-157); `e` is the decrypted value. -/
def heTriple (x : HeDraw) (e : ℤ) : Triple :=
  ⟨x.a, x.b, fmod (fmod (x.a * x.b) intModulus + x.d + e) intModulus⟩

/-- `generateTriples` (he_triples.cpp:87-171) of the holder of `pk`, `sk` whose peer has `other`; result: the triples and the number of values of
`random_int` used so far. `rs i`: randomness of the two encryptions of batch `i`. The loops count batches with a 32-bit counter: from `2^32` batches on
they do not end (`fault`). -/
def heTriples (he : PackedHe intModulus) (pk other : he.Pk) (sk : he.Sk) (rnd : ℕ → ℤ) (rs : ℕ → he.R × he.R) (pos n : ℕ) :
    Proc (List Triple × ℕ) :=
  if n = 0 then .ret ([], pos)
  else if 2 ^ 32 ≤ heBatches n then .fault
  else
    let is := List.range (heBatches n)
    let ctA := is.map fun i => he.enc pk (rs i).1 ((heDraws rnd pos n i).map (·.a))
    let ctD := is.map fun i => he.enc other (rs i).2 ((heDraws rnd pos n i).map (·.d))
    (heSwap he.serCt he.deCt ctA).bind fun ctA2 =>
    let ctE2 := List.zipWith (fun ca e => he.sub (he.mulPlain ca ((heDraws rnd pos n e.1).map (·.b))) e.2) ctA2 (is.zip ctD)
    (heSwap he.serCt he.deCt ctE2).bind fun ctE =>
    .ret ((List.zipWith (fun i c => (heDraws rnd pos n i).mapIdx fun j x => heTriple x (he.get sk c j)) is ctE).flatten, pos + 3 * n)

/-- The constructor (he_triples.cpp:50-85) followed by any number of calls of `generateTriples`. `rnd`: the values of `random_int`, a
`default_random_engine` in its default state (he_triples.h:47, cpp:69-70), so the same for both servers; server 1 skips `random_offset` of them
(he_triples.cpp:73-77). The exchange of the public keys is he_triples.cpp:80-83. -/
def heRun (he : PackedHe intModulus) (sv : Bool) (offset : ℕ) (pk : he.Pk) (sk : he.Sk) (rnd : ℕ → ℤ) (rs : ℕ → ℕ → he.R × he.R) (ns : List ℕ) :
    Proc (List (List Triple)) :=
  (heSwap he.serPk he.dePk [pk]).bind fun ks => match ks with
    | other :: _ => go other 0 (if sv then offset else 0) ns
    | [] => .fault
where
  /-- The calls, one after the other. -/
  go (other : he.Pk) : ℕ → ℕ → List ℕ → Proc (List (List Triple))
  | _, _, [] => .ret []
  | c, pos, n :: ns => (heTriples he pk other sk rnd (rs c) pos n).bind fun r => (go other (c + 1) r.2 ns).bind fun ts => .ret (r.1 :: ts)

end Verif

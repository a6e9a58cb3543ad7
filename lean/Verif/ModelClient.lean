import Verif.ModelNet

/-!
# What an honest client sends (client.cpp)

One function per operation: the two shares of one submission, from the client's value and its random draws. The public
key is sent with both shares. The draws are arguments.
-/

namespace Verif

/-- `bit_sum_helper` (client.cpp:114-117). -/
def clientBit (real share0 : Bool) : Bool × Bool := (share0, share0 ^^ real)

/-- `int_sum_helper` (client.cpp:238-242); `max_int = 1 << num_bits` (client.cpp:1563), width below 64. -/
def clientInt (nbits : ℕ) (rawReal rawShare : U64) : U64 × (U64 × U64) :=
  let real := rawReal % (1#64 <<< nbits)
  let share0 := rawShare % (1#64 <<< nbits)
  (real, share0, share0 ^^^ real)

/-- `encoded` in `xor_op_helper` (client.cpp:378-391): 0 for a true input to AND and for a false input to OR, a random
word otherwise. -/
def xorEncode (isAnd value : Bool) (rand : U64) : U64 :=
  if isAnd then (if value then 0#64 else rand) else (if value then rand else 0#64)

/-- The two shares in `xor_op_helper` (client.cpp:392-393). -/
def clientXor (isAnd value : Bool) (rand share0 : U64) : U64 × U64 := (share0, share0 ^^^ xorEncode isAnd value rand)

/-- `v` in `max_op_helper` (client.cpp:569-573). -/
def maxPos (isMax : Bool) (B value : ℕ) : ℕ := if isMax then value else B - value

/-- `or_encoded_array` in `max_op_helper` (client.cpp:566, 575-576): random words up to position `v`, 0 after it. -/
def maxEncode (isMax : Bool) (B value : ℕ) (rand : ℕ → U64) : List U64 :=
  (List.range (B + 1)).map fun j => if maxPos isMax B value < j then 0#64 else rand j

/-- The two shares in `max_op_helper` (client.cpp:567, 578-579). -/
def clientMax (isMax : Bool) (B value : ℕ) (rand share0 : ℕ → U64) : List U64 × List U64 :=
  ((List.range (B + 1)).map share0,
    List.zipWith (· ^^^ ·) ((List.range (B + 1)).map share0) (maxEncode isMax B value rand))

end Verif

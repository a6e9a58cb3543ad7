import Mathlib.Data.BitVec

/-!
# Formation of XOR shares by the client (client.cpp)
-/

namespace Verif

/-- `uint64_t`, `size_t`. -/
abbrev U64 := BitVec 64

/-- `max_int = 1ULL << num_bits` (client.cpp:1500; same at server.cpp main). `num_bits > 63` is rejected
(client.cpp:1502-1503). -/
def maxInt (numBits : ℕ) : U64 := 1#64 <<< numBits

/-- The two XOR shares of an integer: `share0 = raw % m; share1 = share0 ^ v`
(client.cpp:243-245 with `m = max_int`; 779-784 with `m = max_int` and `m = max_int * max_int`;
lin_reg_helper 1001-1027 likewise). `raw` is the 64-bit draw. -/
def xorSplit (m raw v : U64) : U64 × U64 := (raw % m, (raw % m) ^^^ v)

/-- The two XOR shares of a full word (client.cpp:391-392 for AND/OR, 565-566 for MAX/MIN): no reduction. -/
def xorSplitWord (raw v : U64) : U64 × U64 := (raw, raw ^^^ v)

/-- The two XOR shares of a bit (client.cpp:115-116). -/
def xorSplitBit (raw v : Bool) : Bool × Bool := (raw, raw ^^ v)

end Verif

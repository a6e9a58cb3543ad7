import Verif.ModelCorrelated

/-!
# What a server does with its generator `seed`

The calls on the process-wide `flint_rand_t seed` (constants.cpp:9), in order. FLINT asks that a generator is set up with `flint_randinit` before it is drawn
from, and not drawn from or cleared again after `flint_randclear`.
-/

namespace Verif

/-- `flint_randinit(seed)`, a draw (`fmpz_randm(…, seed, …)`), `flint_randclear(seed)`. -/
inductive SeedOp
  | set
  | draw
  | clear
  deriving DecidableEq, Repr

/-- `init_constants` (constants.cpp:23) and the first `sync_randomX` (server.cpp:120-130, 1481); `sv` is `server_num == 1`. -/
def seedStart (sv : Bool) : List SeedOp := .set :: if sv then [.draw] else []

/-- What a server does in a session, as far as `seed` is concerned. -/
inductive SeedStep
  /-- `validate_snips` with `n` packets (server.cpp:197-272). -/
  | check (n : ℕ)
  /-- The renewal of the check point (server.cpp:1497-1503). -/
  | fresh
  /-- `addDaBits(n)` (correlated.cpp:24-58). -/
  | refill (n : ℕ)

/-- The calls in a step. `validate_snips` deletes its checkers (server.cpp:262), and `~Checker` clears `seed` (server.h:200). `sync_randomX` draws at server 1.
The lazy refill makes daBits at server 0 with two draws each (share.cpp:65-95); the other one draws from another generator. -/
def seedStep (c : StoreCfg) (sv : Bool) : SeedStep → List SeedOp
  | .check n => List.replicate n .clear
  | .fresh => if sv then [.draw] else []
  | .refill n => if c.lazy ∧ sv = false then (List.replicate (if n > c.batch then n else c.batch) [.draw, .draw]).flatten else []

/-- The calls of a server from its start to the end of a session. -/
def seedSession (c : StoreCfg) (sv : Bool) (l : List SeedStep) : List SeedOp := seedStart sv ++ l.flatMap (seedStep c sv)

end Verif

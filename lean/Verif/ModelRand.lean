import Verif.ModelMain

/-!
# FLINT's random generator as the programs use it

`flint_randinit` takes no argument: every process starts its generator in the same state. Trusted description of FLINT: the next state and the value
drawn are functions of the state and the modulus.
-/

namespace Verif

/-- `flint_rand_t` (constants.cpp:9, server.h:136): the state after `flint_randinit` (constants.cpp:23, server.h:139), and
`fmpz_randm(.., state, Int_Modulus)`, which draws a residue. `mem` is the memory of the structure, copied as it is by `send_seed` and `recv_seed`
(net_share.cpp:269-279). All draws of servers and clients in VAR, STDDEV and LINREG use `Int_Modulus` (client.h:28-29, share.cpp:17, 48-49,
server.cpp:125, server.h:304). -/
structure FlintRand where
  State : Type
  init : State
  next : State → ℤ × State
  mem : State → Bytes
  restore : Bytes → State
  draw : ∀ s, IsDraw (next s).1 intModulus
  copy : restore (mem init) = init

namespace FlintRand

/-- The draw number `k` from a generator in state `s` (repeated `fmpz_randm`, server.h:304). -/
def run (g : FlintRand) : g.State → ℕ → ℤ
  | s, 0 => (g.next s).1
  | s, k + 1 => g.run (g.next s).2 k

/-- The draws of a process from its generator `seed`, from `init_constants` on (constants.cpp:23). -/
def nth (g : FlintRand) (k : ℕ) : ℤ := g.run g.init k

end FlintRand

/-- The draws of `share_polynomials` for a circuit with `n` multiplication gates (client.h:28-29, 70, 74-76, 79, 81-82), if `k` draws were made
before by the same process. The stream is the process's; the order is that of the code. -/
def snipRandAt (d : ℕ → ℤ) (n k : ℕ) : SnipRand :=
  let N := npow2 n
  { f0 := d k, g0 := d (k + 1), h := (List.range N).map fun j => d (k + 2 + j), f0s := d (k + 2 + N), g0s := d (k + 3 + N), h0s := d (k + 4 + N),
    mul := (List.range n).map fun i => d (k + 5 + N + i), A := d (k + 5 + N + n), B := d (k + 6 + N + n), As := d (k + 7 + N + n),
    Bs := d (k + 8 + N + n), Cs := d (k + 9 + N + n) }

/-- Number of draws per submission. -/
def snipDraws (n : ℕ) : ℕ := npow2 n + n + 10

/-- `main` of a server (server.cpp:1446-1623) with its FLINT generator: `init_constants` has initialised it, the first draw is that of
`sync_randomX` (server.cpp:1481), and `syncSnipSeeds` (server.cpp:1483) sends the memory of another newly initialised generator. -/
noncomputable def serverBoot (sv : Bool) (c : StoreCfg) (g : StoreRng) (nbits : ℕ) (G : FlintRand) (es : List Env) : Proc (List Answer × Srv) :=
  serverMain sv c g nbits (G.nth 0) (G.mem G.init).length (G.mem G.init) (fun b => G.run (G.restore b)) es

end Verif

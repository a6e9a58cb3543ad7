import Verif.ModelArgs

/-!
# `main` of the server (server.cpp:1446-1493) from its command line on

Connection set-up is left out; the ports are parsed (`atoi` may be undefined) but not used further.
-/

namespace Verif

/-- `CACHE_SIZE` (server.cpp:43). -/
def cacheSize : ℕ := 2097152

/-- What the command line of a server leads to. -/
inductive ServerStart where
  /-- the line `Usage: ...` and exit status 1 (server.cpp:1449) -/
  | usage
  /-- undefined behaviour -/
  | undefined
  /-- `error_exit` (server.cpp:1480) -/
  | failed
  /-- the program goes on as server 0 (`false`) or 1 (`true`) with this `num_bits` -/
  | runs (sv : Bool) (nbits : ℕ)
  deriving DecidableEq, Repr

/-- `num_bits` (server.cpp:54, 1461-1462): a global `uint32_t` that is 0 unless set here; a negative number wraps. -/
def serverBits (argv : List String) : Option ℕ :=
  match argv[4]? with
  | none => some 0
  | some s => (atoi s).map (·.toNat)

/-- The head of `main` (server.cpp:1448-1481). -/
def serverStart (argv : List String) : ServerStart :=
  if argv.length < 4 then .usage
  else match (argv[1]?).bind atoi, (argv[2]?).bind atoi, (argv[3]?).bind atoi, serverBits argv with
  | some num, some _, some _, some nbits =>
    if num = 0#32 then .runs false nbits else if num = 1#32 then .runs true nbits else .failed
  | _, _, _, _ => .undefined

/-- The rest of `main` (server.cpp:1483-1623) with the constants of the source: `CACHE_SIZE`, and `LAZY_PRECOMPUTE` true (server.cpp:45). -/
noncomputable def startedServer (sv : Bool) (nbits : ℕ) (g : StoreRng) (draw : ℤ) (len : ℕ) (mine : Bytes) (gen : Bytes → ℕ → ℤ) (es : List Env) :
    Proc (List Answer × Srv) :=
  serverMain sv ⟨cacheSize, nbits, true⟩ g nbits draw len mine gen es

/-- `main` from the command line on (server.cpp:1446-1623); `none` if no server runs. -/
noncomputable def serverProgram (argv : List String) (g : StoreRng) (draw : ℤ) (len : ℕ) (mine : Bytes) (gen : Bytes → ℕ → ℤ) (es : List Env) :
    Option (Proc (List Answer × Srv)) :=
  match serverStart argv with
  | .runs sv nbits => some (startedServer sv nbits g draw len mine gen es)
  | _ => none

end Verif

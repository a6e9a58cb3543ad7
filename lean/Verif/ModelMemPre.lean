import Verif.ModelMem
import Verif.ModelConstants

/-!
# Memory of the tables kept for checking packets

The blocks behind a `CheckerPreComp` and the calls that make, renew, use and release them, in the order of the code; the check points and the nodes are values
here, since they decide what is released.

Simplified: the coefficients of an `fmpz_mod_poly_t` are one block of 8 bytes per coefficient (FLINT may reserve more), an `fmpz` below `2^62` needs no
block (all of them are), and `fmpz_mod_ctx_t` none for a modulus of one word. `safe_malloc` (poly/util.h:11-20) ends the program when memory runs out; here it
never does.
-/

namespace Verif

/-- `struct tree_s` (poly/poly_batch.h:13-17): the block of the polynomial, and in inner nodes those of the two children. -/
inductive TreeMem
  | leaf (poly : Block)
  | node (poly left right : Block) (l r : TreeMem)
  deriving Repr

/-- `tree_init` (poly/poly_batch.c:73-112) for `n` points. With none it calls itself with none again (102-104) until the stack is used up. -/
def treeInitMem (n : ℕ) : Mem TreeMem :=
  if n = 0 then Mem.fault
  else if n = 1 then do
    let poly ← alloc .raw 16
    pure (.leaf poly)
  else do
    let left ← alloc .raw 40
    let right ← alloc .raw 40
    let l ← treeInitMem (n / 2)
    let r ← treeInitMem (n - n / 2)
    touch left
    touch right
    let poly ← alloc .raw (8 * (n + 1))
    pure (.node poly left right l r)
termination_by n
decreasing_by all_goals omega

/-- `tree_clear` (poly/poly_batch.c:171-182). -/
def treeClearMem : TreeMem → Mem Unit
  | .leaf poly => release .raw poly
  | .node poly left right l r => do
    touch left
    treeClearMem l
    release .raw left
    touch right
    treeClearMem r
    release .raw right
    release .raw poly

/-- `fast_evaluate` (poly/poly_batch.c:235-255), at a tree with `n` leaves: two remainders in every inner node. -/
def fastEvalMem : ℕ → TreeMem → Mem Unit
  | _, .leaf _ => pure ()
  | n, .node _ left right l r => do
    touch left
    let r0 ← alloc .raw (8 * (n / 2))
    touch right
    let r1 ← alloc .raw (8 * (n - n / 2))
    fastEvalMem (n / 2) l
    fastEvalMem (n - n / 2) r
    release .raw r0
    release .raw r1

/-- `struct BatchPre` (server.h:43-73) with `precomp_t` (poly/poly_batch.h:19-27); `points` are the values at `x_points`. -/
structure BatchMem where
  points : List ℤ
  obj : Block
  xs : Block
  ss : Block
  tree : TreeMem
  deriv : Block

/-- `new BatchPre(xPointsIn, n)` (server.h:47-55), `poly_batch_precomp_init` and `c_precomp_init` (poly/poly_batch.c:114-157). -/
def batchPreMem (points : List ℤ) : Mem BatchMem := do
  let n := points.length
  let obj ← alloc .obj 200
  onStack (8 * n)
  let xs ← alloc .raw (8 * n)
  let ss ← alloc .raw (8 * n)
  let tree ← treeInitMem n
  let deriv ← alloc .raw (8 * n)
  fastEvalMem n tree
  pure ⟨points, obj, xs, ss, tree, deriv⟩

/-- `delete` of a `BatchPre` (server.h:70-72) and `poly_batch_precomp_clear` (poly/poly_batch.c:159-169). -/
def deleteBatchMem (b : BatchMem) : Mem Unit := do
  touch b.ss
  touch b.xs
  release .raw b.ss
  release .raw b.xs
  treeClearMem b.tree
  release .raw b.deriv
  release .obj b.obj

/-- `struct PreX` (server.h:75-91) with `precomp_x_t` (poly/poly_once.h:8-13); `short` is `short_x >= 0`. -/
structure PreXMem where
  short : Bool
  obj : Block
  coeffs : Block

/-- `new PreX(b, x)` (server.h:80-82) and `precomp_x_init` (poly/poly_once.c:8-62). The entries are `fmpz`, the size is computed with `mpz_t`, 16 bytes (30). -/
def preXMem (b : BatchMem) (x : ℤ) : Mem PreXMem := do
  let obj ← alloc .obj 32
  touch b.obj
  touch b.xs
  let coeffs ← alloc .raw (16 * b.points.length)
  touch b.ss
  pure ⟨b.points.contains x, obj, coeffs⟩

/-- `delete` of a `PreX` (server.h:84-86) and `precomp_x_clear` (poly/poly_once.c:64-75), which returns before the `free` when `short_x >= 0`. -/
def deletePreXMem (a : PreXMem) : Mem Unit := do
  touch a.obj
  if a.short then pure () else do
    touch a.coeffs
    release .raw a.coeffs
  release .obj a.obj

/-- `PreX::Eval` (server.h:88-90) and `precomp_x_eval` (poly/poly_once.c:77-98). -/
def evalPreXMem (a : PreXMem) : Mem Unit := do
  touch a.obj
  if a.short then pure () else touch a.coeffs

/-- `struct CheckerPreComp` (server.h:93-132). -/
structure CheckerMem where
  obj : Block
  degN : BatchMem
  deg2N : BatchMem
  pair : Option (PreXMem × PreXMem)

/-- `new CheckerPreComp(N)` (server.h:102-107), with the tables `t` in the blocks `tabs` (`roots`, `invroots`, `roots2`). Reading behind a table is undefined. -/
def newCheckerMem (t : RootTables) (tabs : List Block) (N : ℕ) : Mem CheckerMem := do
  if t.roots.length < N ∨ t.roots2.length < 2 * N then Mem.fault else
  let obj ← alloc .obj 40
  let _ ← each tabs touch
  let degN ← batchPreMem (t.roots.take N)
  let deg2N ← batchPreMem (t.roots2.take (2 * N))
  pure ⟨obj, degN, deg2N, none⟩

/-- `clear_preX` (server.h:117-124). -/
def clearPreXMem (c : CheckerMem) : Mem CheckerMem := do
  match c.pair with
  | some (a, b) => do
    deletePreXMem a
    deletePreXMem b
  | none => pure ()
  pure { c with pair := none }

/-- `setCheckerPrecomp(x)` (server.h:109-115). -/
def setPointMem (x : ℤ) (c : CheckerMem) : Mem CheckerMem := do
  touch c.obj
  let c ← clearPreXMem c
  let a ← preXMem c.degN x
  let b ← preXMem c.deg2N x
  pure { c with pair := some (a, b) }

/-- `delete` of a `CheckerPreComp` (server.h:126-131). -/
def deleteCheckerMem (c : CheckerMem) : Mem Unit := do
  touch c.obj
  let c ← clearPreXMem c
  deleteBatchMem c.degN
  deleteBatchMem c.deg2N
  release .obj c.obj

/-- The globals: the tables of roots (constants.cpp:10-11) and their blocks, `randomX` (server.cpp:31) and `precomp_store` (server.cpp:33). -/
structure PreKeep where
  tables : RootTables
  tabs : List Block
  x : ℤ
  store : List (ℕ × CheckerMem)

/-- `init_roots(N)` (constants.cpp:32-84). -/
def loadRootsMem (N : ℕ) (k : PreKeep) : Mem PreKeep :=
  if k.tables.num = N then pure k else do
    deleteObj k.tabs
    let tabs ← newObj [(.raw, 8 * N), (.raw, 8 * N), (.raw, 8 * (2 * N))]
    match initRoots intModulus intGen twoOrder k.tables N with
    | none => Mem.fault
    | some t => pure { k with tables := t, tabs := tabs }

/-- `getPrecomp(N)` (server.cpp:139-149). -/
def getCheckerMem (N : ℕ) (k : PreKeep) : Mem (CheckerMem × PreKeep) :=
  match k.store.lookup N with
  | some c => pure (c, k)
  | none => do
    let c ← newCheckerMem k.tables k.tabs N
    let c ← setPointMem k.x c
    pure (c, { k with store := (N, c) :: k.store })

/-- The checking of one packet with the stored tables: `evalPoly` (server.h:209-240) evaluates at `xN` twice and at `x2N`; without them it would follow a null
pointer. -/
def useCheckerMem (c : CheckerMem) : Mem Unit :=
  match c.pair with
  | none => Mem.fault
  | some (a, b) => do
    evalPreXMem a
    evalPreXMem a
    evalPreXMem b

/-- What `validate_snips` (server.cpp:197-272) does with the globals, for `n` packets of a circuit of size `N` (C79 is about the rest). -/
def checkStepMem (N n : ℕ) (k : PreKeep) : Mem PreKeep := do
  let k ← loadRootsMem N k
  let r ← getCheckerMem N k
  let _ ← times n (useCheckerMem r.1)
  pure r.2

/-- The refresh of the check point (server.cpp:1497-1503). -/
def freshStepMem (x : ℤ) (k : PreKeep) : Mem PreKeep := do
  let store ← each k.store fun e => do
    let c ← setPointMem x e.2
    pure (e.1, c)
  pure { k with x := x, store := store }

/-- The end of `main` (server.cpp:1624-1626). -/
def endMem (k : PreKeep) : Mem Unit := do
  let _ ← each k.store fun e => deleteCheckerMem e.2
  pure ()

/-- What happens to these globals in a session: a batch is checked, or the check point renewed. -/
inductive PreStep
  | check (N n : ℕ)
  | fresh (x : ℤ)

def preStepMem : PreStep → PreKeep → Mem PreKeep
  | .check N n, k => checkStepMem N n k
  | .fresh x, k => freshStepMem x k

/-- A session, from server.cpp:1495 (`while(1)`) on. -/
def preStepsMem : List PreStep → PreKeep → Mem PreKeep
  | [], k => pure k
  | s :: l, k => do
    let k ← preStepMem s k
    preStepsMem l k

/-- The globals at the start of the loop, after the first `sync_randomX` (server.cpp:1481). -/
def PreKeep.start (x : ℤ) : PreKeep := ⟨RootTables.start, [], x, []⟩

end Verif

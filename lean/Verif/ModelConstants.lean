import Verif.ModelFmpz
import Mathlib.Data.List.Range

/-!
# constants.h / constants.cpp
-/

namespace Verif

/-- constants.h:50, hexadecimal string parsed at constants.cpp:15. -/
def intModulus : ℕ := 0x800006880001
/-- constants.h:51, parsed at constants.cpp:17. -/
def intGen : ℕ := 0x3503101C8855
/-- constants.h:52. -/
def twoOrder : ℕ := 19

/-- One table entry: entry 0 is 1, entry i is entry (i-1) times `w`, reduced
(constants.cpp:66-68 and the loops at 70-81). -/
def rootEntry (p : ℕ) (w : ℤ) : ℕ → ℤ
  | 0 => 1
  | i + 1 => fmod (rootEntry p w i * w) p

/-- A table of `n` entries (constants.cpp:66-81). -/
def rootTable (p : ℕ) (w : ℤ) (n : ℕ) : List ℤ := (List.range n).map (rootEntry p w)

/-- The globals `num_roots`, `roots`, `invroots`, `roots2` (constants.cpp:10-11). `num = 0` with empty tables
is the start-up state (null pointers). -/
structure RootTables where
  num : ℕ
  roots : List ℤ
  invroots : List ℤ
  roots2 : List ℤ
  deriving DecidableEq, Repr

/-- Start-up state: constants.cpp:10-11 (static storage, `num_roots` is zero). -/
def RootTables.start : RootTables := ⟨0, [], [], []⟩

/-- `init_roots(N)` (constants.cpp:32-84). Parameters `p`, `g`, `ord` are the constants.
`none`: the write `roots[0]` of a zero-length table (N = 0 while another size is loaded), or an undefined
inverse of the generator. The early return at 33-35 is the first branch. -/
def initRoots (p : ℕ) (g : ℤ) (ord : ℕ) (st : RootTables) (N : ℕ) : Option RootTables :=
  if st.num = N then some st
  else if N = 0 then none
  else
    let step := 2 ^ ord / N
    match invmod g p with
    | none => none
    | some gi =>
      some { num := N
             roots := rootTable p (powm g step p) N
             invroots := rootTable p (powm gi step p) N
             roots2 := rootTable p (powm g (step / 2) p) (2 * N) }

end Verif

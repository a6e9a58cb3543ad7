import Verif.ModelCircuit
import Verif.ModelFft
import Verif.ModelPoly
import Verif.ModelNet

/-!
# client.h: `share_polynomials`; server.h: `CheckerPreComp`, `Checker`
-/

namespace Verif

/-- The random draws of `share_polynomials`, in the order of the code: `f(0)`, `g(0)` (client.h:27-28), one per `h` point (70),
three for the constant terms (74-76), one per multiplication gate (79), the triple and its three splits (81-82). -/
structure SnipRand where
  f0 : ℤ
  g0 : ℤ
  h : List ℤ
  f0s : ℤ
  g0s : ℤ
  h0s : ℤ
  mul : List ℤ
  A : ℤ
  B : ℤ
  As : ℤ
  Bs : ℤ
  Cs : ℤ
  deriving DecidableEq, Repr

/-- Splits of a list of values (the loop client.h:67-71). -/
def splitAll (p : ℕ) (rs vs : List ℤ) : List ℤ × List ℤ :=
  (List.zipWith (fun r v => (splitShare p r v).1) rs vs, List.zipWith (fun r v => (splitShare p r v).2) rs vs)

/-- Entries `2j+1` of the two evaluation arrays multiplied (client.h:67-69), for `j = 0 .. N-1`. -/
def oddProducts (p N : ℕ) (a b : List ℤ) : List ℤ :=
  (List.range N).map fun j => fmod (a.getD (2 * j + 1) 0 * b.getD (2 * j + 1) 0) p

/-- `share_polynomials(circuit, p0, p1)` (client.h:14-95). `w` are the wire values left by `Eval`, `t` the root tables (set up
at line 41-43 or before). The arrays `pointsF`, `pointsG` have `N > n` entries, zero behind the gates; the padded arrays have
`2N`. Freeing memory (83-92) is not modelled. -/
def sharePolynomials (p : ℕ) (c : Circuit) (w : List ℤ) (t : RootTables) (r : SnipRand) : Option (Packet × Packet) :=
  let n := c.mulGates.length
  let N := npow2 n
  (mulTriples c.gates w c.mulGates).bind fun tr =>
  let h0 := fmod (r.f0 * r.g0) p
  let pointsF := r.f0 :: tr.map (fun x => x.1) ++ List.replicate (N - 1 - n) 0
  let pointsG := r.g0 :: tr.map (fun x => x.2.1) ++ List.replicate (N - 1 - n) 0
  (fftInterpolate p N t.invroots pointsF true).bind fun polyF =>
  (fftInterpolate p N t.invroots pointsG true).bind fun polyG =>
  (fftInterpolate p (2 * N) t.roots2 (polyF ++ List.replicate N 0) false).bind fun evalsF =>
  (fftInterpolate p (2 * N) t.roots2 (polyG ++ List.replicate N 0) false).bind fun evalsG =>
  let hs := splitAll p r.h (oddProducts p N evalsF evalsG)
  let f := splitShare p r.f0s r.f0
  let g := splitShare p r.g0s r.g0
  let h := splitShare p r.h0s h0
  (c.getMulShares p w r.mul).bind fun ms =>
  let ts := beaverTripleShares p r.As r.Bs r.Cs (newBeaverTriple p r.A r.B)
  some (⟨ms.1, f.1, g.1, h.1, hs.1, ts.1⟩, ⟨ms.2, f.2, g.2, h.2, hs.2, ts.2⟩)

/-- `struct CheckerPreComp` after `setCheckerPrecomp(x)` (server.h:93-132). -/
structure CheckerPre where
  x : ℤ
  degN : BatchPre
  deg2N : BatchPre
  xN : PreX
  x2N : PreX
  deriving DecidableEq, Repr

/-- `setCheckerPrecomp(x)` (server.h:109-115) with the node tables made by the constructor. -/
def setCheckerPrecomp (p : ℕ) (bN b2N : BatchPre) (x : ℤ) : Option CheckerPre :=
  (preXInit p bN x).bind fun xN => (preXInit p b2N x).map fun x2N => ⟨x, bN, b2N, xN, x2N⟩

/-- `CheckerPreComp(N)` with `setCheckerPrecomp(x)` on the tables `t` (server.h:102-116). `BatchPre(roots, N)` reads the first
`N` entries. -/
noncomputable def checkerPre (p : ℕ) (t : RootTables) (N : ℕ) (x : ℤ) : Option CheckerPre :=
  (batchPre p (t.roots.take N)).bind fun bN => (batchPre p (t.roots2.take (2 * N))).bind fun b2N => setCheckerPrecomp p bN b2N x

/-- The array `pointsH` (server.h:217, 225, 229-231): entry 0 is `h0_s`, entry `2(i+1)` the output of multiplication gate `i`,
entry `2j+1` the packet's `h_points[j]`; the rest of the `2(N+1)` entries is zero. -/
def pointsH (n N : ℕ) (h0 : ℤ) (outs hs : List ℤ) : List ℤ :=
  (List.range (2 * (N + 1))).map fun i =>
    if i = 0 then h0
    else if i % 2 = 0 then (if i / 2 - 1 < n then outs.getD (i / 2 - 1) 0 else 0)
    else if i / 2 < N then hs.getD (i / 2) 0 else 0

/-- The state of a `Checker` after its constructor (server.h:142-197): the evaluations, the wires that have to be zero and the
triple of the packet. -/
structure Checker where
  sv : Bool
  evalF : ℤ
  evalG : ℤ
  evalH : ℤ
  zeros : List ℤ
  triple : Triple
  deriving DecidableEq, Repr

/-- The constructor of `Checker` with `evalPoly` (server.h:172-240), `same_runtime` being false. `none`: not enough shares, or an
`h_points` array shorter than `N`. -/
def checkerInit (p : ℕ) (sv : Bool) (c : Circuit) (pk : Packet) (pre : CheckerPre) (inps : List ℤ) : Option Checker :=
  let n := c.mulGates.length
  let N := npow2 n
  (c.importWires p sv inps pk.mulShares).bind fun w =>
  (mulTriples c.gates w c.mulGates).bind fun tr =>
  if pk.hPoints.length < N then none else
  let pointsF := pk.f0 :: tr.map (fun x => x.1) ++ List.replicate (N - n) 0
  let pointsG := pk.g0 :: tr.map (fun x => x.2.1) ++ List.replicate (N - n) 0
  (preXEval p pre.xN pointsF).bind fun f =>
  (preXEval p pre.xN pointsG).bind fun g =>
  (preXEval p pre.x2N (pointsH n N pk.h0 (tr.map fun x => x.2.2) pk.hPoints)).bind fun h =>
  (wiresAt w c.resultZero).map fun z => ⟨sv, f, fmod (g * pre.x) p, fmod (h * pre.x) p, z, pk.triple⟩

/-- `CorShareFn()` (server.h:242-253). -/
def Checker.corShare (p : ℕ) (k : Checker) : CorShare := ⟨fmod (k.evalF - k.triple.A) p, fmod (k.evalG - k.triple.B) p⟩

/-- The value `mulCheck` (server.h:255-284). -/
def Checker.mulCheck (p : ℕ) (k : Checker) (cor : Cor) : ℤ :=
  let m0 : ℤ := if k.sv then 0 else fmod (cor.D * cor.E) p
  let m1 := fmod (m0 + fmod (cor.D * k.triple.B) p) p
  let m2 := fmod (m1 + fmod (cor.E * k.triple.A) p) p
  let m3 := fmod (m2 + k.triple.C) p
  fmod (m3 - k.evalH) p

/-- The loop of `randSum` (server.h:300-313); `out` is the running sum, `cs` the draws from the shared generator. -/
def randSumLoop (p : ℕ) : ℤ → List ℤ → List ℤ → Option ℤ
  | out, [], _ => some out
  | _, _ :: _, [] => none
  | out, a :: arr, c :: cs => randSumLoop p (out + fmod (c * a) p) arr cs

/-- `OutShare(out, cor)` with `randSum` (server.h:255-316). `out` starts at the caller's zero (server.cpp:240); `cs` are the
draws. -/
def Checker.outShare (p : ℕ) (k : Checker) (cor : Cor) (cs : List ℤ) : Option ℤ :=
  (randSumLoop p 0 (k.mulCheck p cor :: k.zeros) cs).map fun o => fmod o p

/-- `AddToZero(x, y)` (server.h:319-326). -/
def addToZero (p : ℕ) (x y : ℤ) : Bool := fmod (x + y) p = 0

end Verif

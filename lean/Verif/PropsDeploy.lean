import Verif.PropsStart
import Verif.PropsConnect
import Verif.PropsEnd
import Verif.PropsEndVar
import Verif.PropsEndLin
import Verif.PropsEndFreq

/-!
# C84: a deployment, from the command lines of two servers and any number of runs of the client to the answers printed
-/

namespace Verif

/-! ## From a statement about every schedule back to one that can be continued -/

theorem Step.bindBoth {α β γ δ : Type} {s t : Sys α β} (h : Step s t) (k0 : α → Proc γ) (k1 : β → Proc δ) :
    Step (⟨s.p0.bind k0, s.p1.bind k1, s.q01, s.q10⟩ : Sys γ δ) ⟨t.p0.bind k0, t.p1.bind k1, t.q01, t.q10⟩ := by
  cases h with
  | send0 bs k p1 a b => exact .send0 ..
  | send1 bs p0 k a b => exact .send1 ..
  | recv0 n k p1 a b h => exact .recv0 _ _ _ _ _ h
  | recv1 n p0 k a b h => exact .recv1 _ _ _ _ _ h
  | ot01 ch ps cs k0 k1 a b h => exact .ot01 _ _ _ _ _ _ _ h
  | ot10 ch ps cs k0 k1 a b h => exact .ot10 _ _ _ _ _ _ _ h

theorem Steps.bindBoth {α β γ δ : Type} {s t : Sys α β} (h : Steps s t) (k0 : α → Proc γ) (k1 : β → Proc δ) :
    Steps (⟨s.p0.bind k0, s.p1.bind k1, s.q01, s.q10⟩ : Sys γ δ) ⟨t.p0.bind k0, t.p1.bind k1, t.q01, t.q10⟩ := by
  obtain ⟨n, h⟩ := h
  induction h with
  | refl s => exact .refl _
  | head hs _ ih => exact .head (hs.bindBoth k0 k1) ih

theorem Always.pair {α β : Type} {P0 : Proc α} {P1 : Proc β} {a : α} {b : β} (h : Always P0 P1 a b) : Pair P0 P1 a b :=
  fun _ _ k0 k1 => ((h.1 _ (.refl _)).1).bindBoth k0 k1

theorem Ends.left {α β : Type} {P0 : Proc α} {P1 : Proc β} {a : α} {b : β} {q : Bytes} (h : Ends P0 P1 a b q []) : PairLeft P0 P1 a b q :=
  fun _ _ k0 k1 => ((h.1 _ (.refl _)).1).bindBoth k0 k1

/-! ## Runs of the client program -/

/-- A run of the client program: its command line, what it takes from outside, the operation, number of submissions, ports, width and
degree meant, and the surroundings of the two servers while they serve it. -/
structure ClientRun where
  argv : List String
  env : ClientEnv
  op : OpName
  n : ℕ
  p0 : ℕ
  p1 : ℕ
  b : ℕ
  d : ℕ
  e0 : Env
  e1 : Env

/-- The command line: the number of submissions, two ports, the name of the operation, the width and possibly the degree (2 if it is not given). -/
def ClientRun.Asked (r : ClientRun) : Prop :=
  ∃ prog sn sp0 sp1 sb : String, Writes sn r.n ∧ Writes sp0 r.p0 ∧ Writes sp1 r.p1 ∧ Writes sb r.b ∧ r.n < 2 ^ 31 ∧ r.p0 < 2 ^ 31 ∧ r.p1 < 2 ^ 31 ∧
    ((r.argv = [prog, sn, sp0, sp1, r.op.arg, sb] ∧ r.d = 2) ∨
      ∃ (sd : String) (more : List String), r.argv = prog :: sn :: sp0 :: sp1 :: r.op.arg :: sb :: sd :: more ∧ Writes sd r.d ∧ 2 ≤ r.d ∧ r.d < 2 ^ 30)

/-- The blocks of the generator that one submission takes at most. -/
def ClientRun.blocks (r : ClientRun) : ℕ :=
  match r.op with
  | .bitSum | .and | .or => 4
  | .intSum => 2
  | .max | .min => 2 ^ r.b + 3
  | .var | .stddev => 3
  | .linReg => linBlocks r.d
  | .freq => 2 ^ r.b / 16 + 3

/-- The rows of a run of AND or OR. -/
def ClientRun.xorRows (r : ClientRun) (isAnd : Bool) : List (Row (Bool × U64) U64) := uploadLoop (xorOne isAnd) r.n r.env.prg

/-- The rows of a run of MAX or MIN. -/
def ClientRun.maxRows (r : ClientRun) (isMax : Bool) : List (Row (ℕ × List U64) (List U64)) := uploadLoop (maxOne isMax (2 ^ r.b)) r.n r.env.prg

/-- The data points of a run of LINREG. -/
def ClientRun.points (r : ClientRun) : List (List ℕ × ℕ) := (linClients r.d (r.env.rands r.n) r.env.prg).map (·.data r.b)

/-- The words that hide the deciding submissions of AND or OR do not cancel. -/
def ClientRun.XorApart (r : ClientRun) (isAnd : Bool) : Prop :=
  (∃ w ∈ r.xorRows isAnd, w.real.1 ≠ isAnd) → xorAll (decidingWords isAnd (r.xorRows isAnd)) ≠ 0#64

/-- The words that hide the extreme submissions of MAX or MIN do not cancel. -/
def ClientRun.MaxApart (r : ClientRun) (isMax : Bool) : Prop :=
  ∀ v, (∃ w ∈ r.maxRows isMax, w.real.1 = v) → (∀ w ∈ r.maxRows isMax, atLeast isMax v w.real.1) →
    xorAll (columnWords v (maxPos isMax (2 ^ r.b) v) (r.maxRows isMax)) ≠ 0#64

/-- The sizes that the operations can take at servers started with the width `w`. -/
def ClientRun.Sized (w : ℕ) (r : ClientRun) : Prop :=
  match r.op with
  | .bitSum => r.b ≤ 63
  | .intSum => r.b = w ∧ w ≤ 63
  | .and => r.b ≤ 63 ∧ r.XorApart true
  | .or => r.b ≤ 63 ∧ r.XorApart false
  | .max => r.b = w ∧ w ≤ 31 ∧ 0 < r.n ∧ r.n * (2 ^ w + 1) < 2 ^ 32 ∧ r.MaxApart true
  | .min => r.b = w ∧ w ≤ 31 ∧ 0 < r.n ∧ r.n * (2 ^ w + 1) < 2 ^ 32 ∧ r.MaxApart false
  | .var | .stddev => r.b = w ∧ w ≤ 24 ∧ 0 < r.n ∧ r.e0.fma = r.env.fma ∧ (∃ l, RootCalls (2 :: l) r.env.tables) ∧
      (∀ i < r.n, ValidRand intModulus varCircuit (r.env.rand i)) ∧
      ∀ rows, varLoop w r.env.tables (r.env.rands r.n) r.env.prg = some rows → (rows.map fun q => q.real.toNat ^ 2).sum < intModulus
  | .linReg => r.b = w ∧ w ≤ 24 ∧ 0 < r.n ∧ linMul r.d < 2 ^ 18 ∧ (∃ l, RootCalls (npow2 (linMul r.d) :: l) r.env.tables) ∧
      (∃ circ, checkLinReg intModulus r.d = some circ ∧ ∀ i < r.n, ValidRand intModulus circ (r.env.rand i)) ∧
      ∀ k ∈ xSums r.d r.points ++ ySums r.d r.points, k < intModulus
  | .freq => r.b = w ∧ w ≤ 30 ∧ r.n * 2 ^ w < 2 ^ 32

/-- What is asked of a run: the command line, a generator made of a permutation whose counter does not wrap around, the sizes, and that the bytes
which it sends arrive; the maps of server 1 may be iterated in any order. -/
structure ClientRun.Fine (w : ℕ) (r : ClientRun) : Prop where
  asked : r.Asked
  steady : r.env.prg.Steady
  cipher : Function.Injective r.env.prg.aes
  counter : r.env.prg.pos + r.blocks * r.n < 2 ^ 64
  sized : r.Sized w
  arrives : ∀ b0 b1 shown, clientMain r.env r.argv = .sent b0 b1 shown → r.e0.stream = b0 ∧ r.e1.stream = b1
  ord : ∀ α : Type, IsOrder (r.e1.ord (α := α))
  draw : Canon r.e1.draw intModulus

/-- What a run should print: the statistic of the values which it submits. -/
def ClientRun.Correct (r : ClientRun) (shown : Shown) : Prop :=
  match r.op with
  | .bitSum => ∃ a, shown = .count a ∧ a.toNat = ((uploadLoop bitOne r.n r.env.prg).map (·.real)).count true
  | .intSum => shown = .word (BitVec.ofNat 64 ((uploadLoop (intOne r.b) r.n r.env.prg).map fun q => q.real.toNat).sum)
  | .and => shown = .flag ((r.xorRows true).all (·.real.1))
  | .or => shown = .flag ((r.xorRows false).any (·.real.1))
  | .max => ∃ v, shown = .nat v ∧ (∃ q ∈ r.maxRows true, q.real.1 = v) ∧ ∀ q ∈ r.maxRows true, q.real.1 ≤ v
  | .min => ∃ v, shown = .nat v ∧ (∃ q ∈ r.maxRows false, q.real.1 = v) ∧ ∀ q ∈ r.maxRows false, v ≤ q.real.1
  | .var => ∃ rows a, varLoop r.b r.env.tables (r.env.rands r.n) r.env.prg = some rows ∧ shown = .real (some a) ∧
      NearVar false (listVar (rows.map fun q => q.real.toNat)) (meanSq (rows.map fun q => q.real.toNat)) (∀ u ∈ rows, ∀ v ∈ rows, u.real.toNat = v.real.toNat) a
  | .stddev => ∃ rows a, varLoop r.b r.env.tables (r.env.rands r.n) r.env.prg = some rows ∧ shown = .real (some a) ∧
      NearVar true (listVar (rows.map fun q => q.real.toNat)) (meanSq (rows.map fun q => q.real.toNat)) (∀ u ∈ rows, ∀ v ∈ rows, u.real.toNat = v.real.toNat) a
  | .linReg => ((normalMatrix r.d r.points).det = 0 → shown = .coeffs none) ∧
      ((normalMatrix r.d r.points).det ≠ 0 → ∃ co : List ℚ, shown = .coeffs (some co) ∧ co.length = r.d ∧
        ∀ f : ℕ → ℝ, rss r.d r.points (fun i => (co.getD i 0 : ℚ)) ≤ rss r.d r.points f ∧
          (rss r.d r.points f = rss r.d r.points (fun i => (co.getD i 0 : ℚ)) → ∀ i < r.d, f i = (co.getD i 0 : ℚ)))
  | .freq => shown = .hist ((List.range (2 ^ r.b)).map fun j => ((uploadLoop (freqOne r.b) r.n r.env.prg).map fun q => q.real.toNat).count j)

/-- The server's answer is what the client prints. -/
def SameAnswer : Shown → Answer → Prop
  | .count a, .word (.ans v) => v.toNat = a.toNat
  | .word a, .word (.ans v) => v = a
  | .flag a, .flag (.ans v) => v = a
  | .nat a, .nat (.ans v) => v = a
  | .real a, .real (.ans v) => v = a
  | .coeffs a, .lin (.ans v) => v = a
  | .hist a, .hist (.ans v) => v = a.map fun k : ℕ => (k : ℤ)
  | _, _ => False

/-- The server has no answer to print. -/
def NoAnswer : Answer → Prop
  | .word .noAns | .flag .noAns | .nat .noAns | .real .noAns | .lin .noAns | .hist .noAns => True
  | _ => False

/-- The client program of this run ends, what it prints is right, and the server's answer is the same. -/
def ClientRun.Answered (r : ClientRun) (a : Answer) : Prop :=
  ∃ shown, clientMain r.env r.argv = .sent r.e0.stream r.e1.stream shown ∧ r.Correct shown ∧ SameAnswer shown a

/-! ## One run -/

theorem ClientRun.main_eq {r : ClientRun} (h : r.Asked) (hb : r.b ≤ r.op.widest) : clientMain r.env r.argv = r.op.run r.env r.n r.b r.d := by
  obtain ⟨prog, sn, sp0, sp1, sb, hn, h0, h1, hw, ln, l0, l1, ⟨e, hd⟩ | ⟨sd, more, e, hs, h2, hd⟩⟩ := h
  · rw [e, hd]; exact (C70_runs r.env r.op hn h0 h1 hw ln l0 l1 hb).1
  · rw [e]; exact (C70_runs r.env r.op hn h0 h1 hw ln l0 l1 hb).2 more hs h2 hd

theorem ClientRun.n_lt {r : ClientRun} (h : r.Asked) : r.n < 2 ^ 31 := by
  obtain ⟨_, _, _, _, _, _, _, _, _, ln, _⟩ := h; exact ln

theorem ClientRun.two_le {r : ClientRun} (h : r.Asked) : 2 ≤ r.d := by
  obtain ⟨_, _, _, _, _, _, _, _, _, _, _, _, ⟨_, hd⟩ | ⟨_, _, _, _, h2, _⟩⟩ := h <;> omega

theorem rands_length (e : ClientEnv) (n : ℕ) : (e.rands n).length = n := by simp [ClientEnv.rands]

theorem rands_mem {e : ClientEnv} {n : ℕ} {s : SnipRand} (h : s ∈ e.rands n) : ∃ i < n, e.rand i = s := by
  obtain ⟨i, hi, rfl⟩ := List.mem_map.1 h
  exact ⟨i, List.mem_range.1 hi, rfl⟩

/-- A run of any operation but FREQ at two servers in step. -/
theorem clientRun_pair (c : StoreCfg) {g0 g1 : StoreRng} (hg : GoodRng intModulus g0) {w : ℕ} (coef : ℕ → ℤ) {r : ClientRun} (h : r.Fine w) (hf : r.op ≠ .freq)
    {y : Shared} {s0 s1 : Srv} (hs : InStep y s0 s1) :
    ∃ a q s0' s1' y', Pair (iteration false c g0 w coef r.e0 s0) (iteration true c g1 w coef r.e1 s1) (a, s0') (q, s1') ∧ InStep y' s0' s1' ∧
      r.Answered a ∧ NoAnswer q := by
  obtain ⟨argv, env, op, n, p0, p1, b, d, e0, e1⟩ := r
  have hn := ClientRun.n_lt h.asked
  have hd2 := ClientRun.two_le h.asked
  have hmain := fun hb => ClientRun.main_eq h.asked hb
  have hcnt := h.counter
  have hsz := h.sized
  have harr := h.arrives
  have hord := h.ord
  have hdraw := h.draw
  have hst := h.steady
  have hci := h.cipher
  clear h
  dsimp only at *
  cases op with
  | bitSum =>
    dsimp only [ClientRun.Sized, ClientRun.blocks] at *
    rw [hmain hsz] at harr
    obtain ⟨a0, a1⟩ := harr _ _ _ rfl
    obtain ⟨s0', s1', hA, ⟨y', hI⟩, hp⟩ := C59_bit_sum c (g1 := g1) hg (nbits := w) coef (n := n) (by omega) env.junk env.prg
      (C59_keys_distinct C59_bit_blocks hst hci hcnt) ⟨a0, a1, hord, hdraw, _, hs⟩
    refine ⟨_, _, s0', s1', y', hA.pair, hI, ⟨_, by rw [hmain hsz, a0, a1]; rfl, ⟨_, rfl, hp⟩, ?_⟩, trivial⟩
    show BitVec.toNat _ = BitVec.toNat _
    rw [hp, BitVec.toNat_ofNat, Nat.mod_eq_of_lt]
    refine lt_of_le_of_lt List.count_le_length ?_
    rw [List.length_map, upload_length]; omega
  | intSum =>
    dsimp only [ClientRun.Sized, ClientRun.blocks] at *
    obtain ⟨rfl, hw⟩ := hsz
    rw [hmain hw] at harr
    obtain ⟨a0, a1⟩ := harr _ _ _ rfl
    obtain ⟨s0', s1', hA, ⟨y', hI⟩, hp⟩ := C59_int_sum c (g1 := g1) hg hw coef (n := n) (by omega) env.junk env.prg
      (C59_keys_distinct (C59_int_blocks _) hst hci hcnt) ⟨a0, a1, hord, hdraw, _, hs⟩
    exact ⟨_, _, s0', s1', y', hA.pair, hI, ⟨_, by rw [hmain hw, a0, a1]; rfl, congrArg Shown.word hp, hp.symm⟩, trivial⟩
  | and =>
    dsimp only [ClientRun.Sized, ClientRun.blocks] at *
    obtain ⟨hw, hx⟩ := hsz
    rw [hmain hw] at harr
    obtain ⟨a0, a1⟩ := harr _ _ _ rfl
    obtain ⟨v, s0', s1', hA, ⟨y', hI⟩, hp, h1, h2⟩ := C59_xor c (g1 := g1) hg (nbits := w) coef true (n := n) (by omega) env.junk env.prg
      (C59_keys_distinct (C59_xor_blocks _) hst hci hcnt) ⟨a0, a1, hord, hdraw, _, hs⟩
    refine ⟨_, _, s0', s1', y', hA.pair, hI, ⟨_, by rw [hmain hw, a0, a1]; rfl, congrArg Shown.flag hp, ?_⟩, trivial⟩
    by_cases hall : ∀ w ∈ uploadLoop (xorOne true) n env.prg, w.real.1 = true
    · exact h1 hall
    · push Not at hall
      exact (h2 hall).2 (hx hall)
  | or =>
    dsimp only [ClientRun.Sized, ClientRun.blocks] at *
    obtain ⟨hw, hx⟩ := hsz
    rw [hmain hw] at harr
    obtain ⟨a0, a1⟩ := harr _ _ _ rfl
    obtain ⟨v, s0', s1', hA, ⟨y', hI⟩, hp, h1, h2⟩ := C59_xor c (g1 := g1) hg (nbits := w) coef false (n := n) (by omega) env.junk env.prg
      (C59_keys_distinct (C59_xor_blocks _) hst hci hcnt) ⟨a0, a1, hord, hdraw, _, hs⟩
    refine ⟨_, _, s0', s1', y', hA.pair, hI, ⟨_, by rw [hmain hw, a0, a1]; rfl, congrArg Shown.flag hp, ?_⟩, trivial⟩
    by_cases hall : ∀ w ∈ uploadLoop (xorOne false) n env.prg, w.real.1 = false
    · exact h1 hall
    · push Not at hall
      exact (h2 hall).2 (hx hall)
  | max =>
    dsimp only [ClientRun.Sized, ClientRun.blocks] at *
    obtain ⟨rfl, hw, hpos, hsize, hx⟩ := hsz
    have hw' : b ≤ OpName.max.widest := by simp only [OpName.widest]; omega
    rw [hmain hw'] at harr
    obtain ⟨a0, a1⟩ := harr _ _ _ rfl
    obtain ⟨-, ht, hle, hans, hreach⟩ := C59_max c (g1 := g1) hg hw coef true hpos hsize env.prg
      (C59_keys_distinct (C59_max_blocks _ _) hst hci hcnt) ⟨a0, a1, hord, hdraw, _, hs⟩
    have hne := hx _ ht hle
    obtain ⟨v, s0', s1', hA, ⟨y', hI⟩, -, hv⟩ := hans (hreach hne)
    refine ⟨_, _, s0', s1', y', hA.pair, hI, ⟨_, by rw [hmain hw', a0, a1]; rfl, ⟨_, rfl, ht, fun q hq => ?_⟩, hv.2 hne⟩, trivial⟩
    simpa [atLeast] using hle q hq
  | min =>
    dsimp only [ClientRun.Sized, ClientRun.blocks] at *
    obtain ⟨rfl, hw, hpos, hsize, hx⟩ := hsz
    have hw' : b ≤ OpName.min.widest := by simp only [OpName.widest]; omega
    rw [hmain hw'] at harr
    obtain ⟨a0, a1⟩ := harr _ _ _ rfl
    obtain ⟨-, ht, hle, hans, hreach⟩ := C59_max c (g1 := g1) hg hw coef false hpos hsize env.prg
      (C59_keys_distinct (C59_max_blocks _ _) hst hci hcnt) ⟨a0, a1, hord, hdraw, _, hs⟩
    have hne := hx _ ht hle
    obtain ⟨v, s0', s1', hA, ⟨y', hI⟩, -, hv⟩ := hans (hreach hne)
    refine ⟨_, _, s0', s1', y', hA.pair, hI, ⟨_, by rw [hmain hw', a0, a1]; rfl, ⟨_, rfl, ht, fun q hq => ?_⟩, hv.2 hne⟩, trivial⟩
    simpa [atLeast] using hle q hq
  | var =>
    dsimp only [ClientRun.Sized, ClientRun.blocks] at *
    obtain ⟨rfl, hw, hpos, hfma, ⟨l, hl⟩, hr, hp⟩ := hsz
    have hw' : b ≤ OpName.var.widest := by simp only [OpName.widest]; omega
    obtain ⟨rows, b0, b1, printed, hrows, hcl, hrest⟩ := C59_var c (g1 := g1) hg env.fma false hw coef hl (rs := env.rands n)
      (by intro e; have := congrArg List.length e; rw [rands_length, List.length_nil] at this; omega) (by rw [rands_length]; omega)
      (fun s hs => by obtain ⟨i, hi, rfl⟩ := rands_mem hs; exact hr i hi) env.junk env.prg hci (by rw [rands_length]; exact hcnt)
    obtain ⟨⟨a, ha, hnear⟩, hgo⟩ := hrest (hp _ hrows)
    have hrun : OpName.var.run env n b d = .sent b0 b1 (.real printed) := by simp only [OpName.run, hcl, shows]
    rw [hmain hw'] at harr
    obtain ⟨a0, a1⟩ := harr _ _ _ hrun
    obtain ⟨s0', s1', hA, y', hI⟩ := hgo ⟨a0, a1, hord, hdraw, _, hs⟩ hfma
    exact ⟨_, _, s0', s1', y', hA.pair, hI, ⟨.real printed, by rw [hmain hw', a0, a1]; exact hrun, ⟨rows, a, hrows, by rw [ha], hnear⟩, rfl⟩, trivial⟩
  | stddev =>
    dsimp only [ClientRun.Sized, ClientRun.blocks] at *
    obtain ⟨rfl, hw, hpos, hfma, ⟨l, hl⟩, hr, hp⟩ := hsz
    have hw' : b ≤ OpName.stddev.widest := by simp only [OpName.widest]; omega
    obtain ⟨rows, b0, b1, printed, hrows, hcl, hrest⟩ := C59_var c (g1 := g1) hg env.fma true hw coef hl (rs := env.rands n)
      (by intro e; have := congrArg List.length e; rw [rands_length, List.length_nil] at this; omega) (by rw [rands_length]; omega)
      (fun s hs => by obtain ⟨i, hi, rfl⟩ := rands_mem hs; exact hr i hi) env.junk env.prg hci (by rw [rands_length]; exact hcnt)
    obtain ⟨⟨a, ha, hnear⟩, hgo⟩ := hrest (hp _ hrows)
    have hrun : OpName.stddev.run env n b d = .sent b0 b1 (.real printed) := by simp only [OpName.run, hcl, shows]
    rw [hmain hw'] at harr
    obtain ⟨a0, a1⟩ := harr _ _ _ hrun
    obtain ⟨s0', s1', hA, y', hI⟩ := hgo ⟨a0, a1, hord, hdraw, _, hs⟩ hfma
    exact ⟨_, _, s0', s1', y', hA.pair, hI, ⟨.real printed, by rw [hmain hw', a0, a1]; exact hrun, ⟨rows, a, hrows, by rw [ha], hnear⟩, rfl⟩, trivial⟩
  | linReg =>
    dsimp only [ClientRun.Sized, ClientRun.blocks] at *
    obtain ⟨rfl, hw, hpos, hsm, ⟨l, hl⟩, ⟨circ, hcirc, hr⟩, hp⟩ := hsz
    have hw' : b ≤ OpName.linReg.widest := by simp only [OpName.widest]; omega
    obtain ⟨b0, b1, printed, hcl, z1, z2, hgo⟩ := C59_lin c (g1 := g1) hg (d := d) (by omega) hsm hw coef hcirc hl (rs := env.rands n)
      (by intro e; have := congrArg List.length e; rw [rands_length, List.length_nil] at this; omega) (by rw [rands_length]; omega)
      (fun s hs => by obtain ⟨i, hi, rfl⟩ := rands_mem hs; exact hr i hi) env.junk env.prg hci (by rw [rands_length]; exact hcnt) hp
    have hrun : OpName.linReg.run env n b d = .sent b0 b1 (.coeffs printed) := by simp only [OpName.run, hcl, shows]
    rw [hmain hw'] at harr
    obtain ⟨a0, a1⟩ := harr _ _ _ hrun
    obtain ⟨s0', s1', hA, y', hI⟩ := hgo ⟨a0, a1, hord, hdraw, _, hs⟩
    refine ⟨_, _, s0', s1', y', hA.pair, hI, ⟨.coeffs printed, by rw [hmain hw', a0, a1]; exact hrun, ⟨fun h0 => by rw [z1 h0], fun h0 => ?_⟩, rfl⟩, trivial⟩
    obtain ⟨co, e, hl, hb⟩ := z2 h0
    exact ⟨co, by rw [e], hl, hb⟩
  | freq => exact absurd rfl hf

/-- A run of FREQ at two servers in step: the validity bytes stay behind. -/
theorem run_freq_left (c : StoreCfg) {g0 g1 : StoreRng} (hg : GoodRng intModulus g0) {w : ℕ} (coef : ℕ → ℤ) {r : ClientRun} (h : r.Fine w) (hf : r.op = .freq)
    {y : Shared} {s0 s1 : Srv} (hs : InStep y s0 s1) :
    ∃ a q s0' s1' y', PairLeft (iteration false c g0 w coef r.e0 s0) (iteration true c g1 w coef r.e1 s1) (a, s0') (q, s1')
        (encBools (List.replicate r.n true)) ∧ InStep y' s0' s1' ∧ r.Answered a ∧ NoAnswer q := by
  obtain ⟨argv, env, op, n, p0, p1, b, d, e0, e1⟩ := r
  have hmain := fun hb => ClientRun.main_eq h.asked hb
  have hcnt := h.counter
  have hsz := h.sized
  have harr := h.arrives
  dsimp only at *
  subst hf
  dsimp only [ClientRun.Sized, ClientRun.blocks] at *
  obtain ⟨rfl, hw, hsize⟩ := hsz
  have hw' : b ≤ OpName.freq.widest := by simp only [OpName.widest]; omega
  rw [hmain hw'] at harr
  obtain ⟨a0, a1⟩ := harr _ _ _ rfl
  obtain ⟨s0', s1', hA, ⟨y', hI⟩, hp⟩ := C59_freq c (g1 := g1) hg hw coef hsize env.prg
    (C59_keys_distinct (C59_freq_blocks _) h.steady h.cipher (by rw [shl_toNat (by omega)]; exact hcnt)) ⟨a0, a1, h.ord, h.draw, _, hs⟩
  refine ⟨_, _, s0', s1', y', hA.left, hI, ⟨_, by rw [hmain hw', a0, a1]; rfl, congrArg Shown.hist hp, ?_⟩, trivial⟩
  show _ = List.map _ _
  rw [hp, List.map_map]
  rfl

/-! ## A session -/

/-- Runs of the client one after the other, none of FREQ. -/
theorem runs_pair (c : StoreCfg) {g0 g1 : StoreRng} (hg : GoodRng intModulus g0) {w : ℕ} (coef : ℕ → ℤ) : ∀ (rs : List ClientRun),
    (∀ r ∈ rs, r.Fine w ∧ r.op ≠ .freq) → ∀ {y : Shared} {s0 s1 : Srv}, InStep y s0 s1 →
    ∃ as qs s0' s1' y', Pair (session false c g0 w coef (rs.map (·.e0)) s0) (session true c g1 w coef (rs.map (·.e1)) s1) (as, s0') (qs, s1') ∧
      InStep y' s0' s1' ∧ List.Forall₂ ClientRun.Answered rs as ∧ qs.length = rs.length ∧ ∀ q ∈ qs, NoAnswer q
  | [], _, y, s0, s1, hs => ⟨[], [], s0, s1, y, Pair.ret _ _, hs, .nil, rfl, by simp⟩
  | r :: rs, hr, y, s0, s1, hs => by
    obtain ⟨hf, hop⟩ := hr r (List.mem_cons_self ..)
    obtain ⟨a, q, t0, t1, z, hP, hI, ha, hq⟩ := clientRun_pair c (g1 := g1) hg coef hf hop hs
    obtain ⟨as, qs, u0, u1, z', hP', hI', has, hl, hqs⟩ := runs_pair c hg coef rs (fun r' h' => hr r' (List.mem_cons_of_mem _ h')) hI
    exact ⟨a :: as, q :: qs, u0, u1, z', hP.bind (hP'.bind (Pair.ret _ _)), hI', .cons ha has, by simp [hl], by
      intro x hx
      rcases List.mem_cons.1 hx with rfl | hx
      · exact hq
      · exact hqs x hx⟩

/-- Runs of the client one after the other, the last one of FREQ. -/
theorem runs_freq_left (c : StoreCfg) {g0 g1 : StoreRng} (hg : GoodRng intModulus g0) {w : ℕ} (coef : ℕ → ℤ) {f : ClientRun} (hf : f.Fine w)
    (ho : f.op = .freq) : ∀ (rs : List ClientRun), (∀ r ∈ rs, r.Fine w ∧ r.op ≠ .freq) → ∀ {y : Shared} {s0 s1 : Srv}, InStep y s0 s1 →
    ∃ as qs s0' s1', PairLeft (session false c g0 w coef ((rs ++ [f]).map (·.e0)) s0) (session true c g1 w coef ((rs ++ [f]).map (·.e1)) s1) (as, s0')
        (qs, s1') (encBools (List.replicate f.n true)) ∧
      List.Forall₂ ClientRun.Answered (rs ++ [f]) as ∧ qs.length = rs.length + 1 ∧ ∀ q ∈ qs, NoAnswer q
  | [], _, y, s0, s1, hs => by
    obtain ⟨a, q, t0, t1, z, hP, hI, ha, hq⟩ := run_freq_left c (g1 := g1) hg coef hf ho hs
    refine ⟨[a], [q], t0, t1, fun γ δ k0 k1 => ?_, .cons ha .nil, rfl, by simpa using hq⟩
    have := hP γ δ (fun x => k0 ([x.1], x.2)) (fun x => k1 ([x.1], x.2))
    simpa only [List.nil_append, List.map_cons, List.map_nil, session, Proc.bind_assoc, Proc.bind] using this
  | r :: rs, hr, y, s0, s1, hs => by
    obtain ⟨hf', hop⟩ := hr r (List.mem_cons_self ..)
    obtain ⟨a, q, t0, t1, z, hP, hI, ha, hq⟩ := clientRun_pair c (g1 := g1) hg coef hf' hop hs
    obtain ⟨as, qs, u0, u1, hP', has, hl, hqs⟩ := runs_freq_left c (g1 := g1) hg coef hf ho rs (fun r' h' => hr r' (List.mem_cons_of_mem _ h')) hI
    refine ⟨a :: as, q :: qs, u0, u1, hP.bindLeft (fun γ δ k0 k1 => ?_), .cons ha has, by simp [hl], by
      intro x hx
      rcases List.mem_cons.1 hx with rfl | hx
      · exact hq
      · exact hqs x hx⟩
    have := hP' γ δ (fun x => k0 (a :: x.1, x.2)) (fun x => k1 (q :: x.1, x.2))
    rw [Proc.bind_assoc, Proc.bind_assoc]
    exact this

/-! ## The servers' command lines, and the order of the connections -/

/-- The command line of a server: its number, the port for the clients, the port of the link between the servers, the width. -/
def ServerAsked (argv : List String) (k port link w : ℕ) : Prop :=
  ∃ (prog sk sp sl sw : String) (more : List String), argv = prog :: sk :: sp :: sl :: sw :: more ∧ Writes sk k ∧ Writes sp port ∧ Writes sl link ∧
    Writes sw w ∧ port < 2 ^ 31 ∧ link < 2 ^ 31 ∧ w < 2 ^ 31

theorem ServerAsked.starts {argv : List String} {k port link w : ℕ} (h : ServerAsked argv k port link w) (hk : k ≤ 1) :
    serverStart argv = .runs (k == 1) w := by
  obtain ⟨prog, sk, sp, sl, sw, more, rfl, h0, h1, h2, h3, l1, l2, l3⟩ := h
  rw [(C72_start h0 h1 h2 h3 (by omega) l1 l2 l3 more).1]
  obtain rfl | rfl : k = 0 ∨ k = 1 := by omega
  · rfl
  · rfl

/-- What precedes the loop of the servers. -/
theorem main_prelude {draw : ℤ} (hd : Canon draw intModulus) (d0 : ℤ) (seed mine : Bytes) :
    Pair ((syncRandomX false d0).bind fun x => (syncSnipSeeds false seed.length seed).bind fun sd => .ret (x, sd))
      ((syncRandomX true draw).bind fun x => (syncSnipSeeds true seed.length mine).bind fun sd => .ret (x, sd)) (draw, seed) (draw, seed) := by
  refine (syncRandomX_pair hd d0).bind (Pair.bind (a := seed) (b := seed) ?_ (Pair.ret _ _))
  unfold syncSnipSeeds
  rw [if_neg (by decide), if_pos rfl]
  have hrd : Reads (Rd.get seed.length .ret) seed seed := Reads.get rfl (Reads.ret _)
  have := (Pair.send01 hrd).bind (Q0 := fun _ => Proc.ret seed) (Q1 := Proc.ret) (Pair.ret seed seed)
  rwa [Proc.bind_ret] at this

theorem serverMain_eq (sv : Bool) (c : StoreCfg) (g : StoreRng) (w : ℕ) (draw : ℤ) (len : ℕ) (mine : Bytes) (gen : Bytes → ℕ → ℤ) (es : List Env) :
    serverMain sv c g w draw len mine gen es =
      ((syncRandomX sv draw).bind fun x => (syncSnipSeeds sv len mine).bind fun sd => .ret (x, sd)).bind fun q =>
        session sv c g w (gen q.2) es ⟨⟨RootTables.start, [], q.1, 0, 0⟩, ⟨[], [], 0⟩⟩ := by
  simp only [serverMain, Proc.bind_assoc, Proc.bind]

/-- In an execution in which the runs of the client do not overlap while they connect, the servers take the runs in the same order. -/
theorem Orderly.ids {pc : ConnCfg} (hpc : PortsOk pc) {s : Net} (h : Orderly pc s) (hlen : s.took0.length = s.took1.length) :
    ∃ ids : List ℕ, s.took0 = ids.map .first ∧ s.took1 = ids.map .second := by
  obtain ⟨ids, h1, h0⟩ := (h.inOrder hpc).same
  have e1 : s.took1 = (ids.take s.took1.length).map .second := by
    rw [List.map_take, ← h1, Net.all1, List.take_left]
  have hle : s.took1.length ≤ ids.length := by
    have := congrArg List.length h1; simp [Net.all1] at this; omega
  refine ⟨_, ?_, e1⟩
  rcases h0 with ⟨h0, -⟩ | ⟨j, h0, -⟩
  · rw [List.map_take, ← h0, Net.all0, ← hlen, List.take_left]
  · rw [← List.take_append_of_le_length (l₂ := [j]) hle, List.map_take, ← h0, Net.all0, ← hlen, List.take_left]

/-- The surroundings of a server while it serves a connection: those of the run which made it. -/
def servedEnv (r : ℕ → ClientRun) (other : Env) : Conn → Env
  | .peer => other
  | .first i => (r i).e0
  | .second i => (r i).e1

/-- The ports of a deployment: the port of each server for the clients and that of the link, and those on the clients' command lines. -/
def deployPorts (port0 port1 link : ℕ) (r : ℕ → ClientRun) : ConnCfg :=
  ⟨BitVec.ofNat 32 port0, BitVec.ofNat 32 link, BitVec.ofNat 32 port1, BitVec.ofNat 32 link, fun i => BitVec.ofNat 32 (r i).p0,
    fun i => BitVec.ofNat 32 (r i).p1⟩

theorem htons_ofNat (k : ℕ) : htons (BitVec.ofNat 32 k) = BitVec.ofNat 16 k := by
  apply BitVec.eq_of_toNat_eq
  simp only [htons, BitVec.toNat_setWidth, BitVec.toNat_ofNat]
  omega

theorem htons_apart {j k : ℕ} (hj : j < 2 ^ 16) (hk : k < 2 ^ 16) (h : j ≠ k) : htons (BitVec.ofNat 32 j) ≠ htons (BitVec.ofNat 32 k) := by
  rw [htons_ofNat, htons_ofNat]
  intro e
  have := congrArg BitVec.toNat e
  simp only [BitVec.toNat_ofNat] at this
  omega

/-- The ports are numbers of ports, not 0 and different, and the clients name them. -/
structure PortsGiven (port0 port1 link : ℕ) (r : ℕ → ClientRun) : Prop where
  range : ∀ k ∈ [port0, port1, link], 0 < k ∧ k < 2 ^ 16
  apart : [port0, port1, link].Nodup
  named : ∀ i, (r i).p0 = port0 ∧ (r i).p1 = port1

theorem PortsGiven.ok {port0 port1 link : ℕ} {r : ℕ → ClientRun} (h : PortsGiven port0 port1 link r) : PortsOk (deployPorts port0 port1 link r) := by
  have l0 := h.range port0 (by simp)
  have l1 := h.range port1 (by simp)
  have ll := h.range link (by simp)
  have ha := h.apart
  simp only [List.nodup_cons, List.mem_cons, List.not_mem_nil, or_false, not_or, not_false_eq_true, List.nodup_nil, and_true] at ha
  have z : ∀ {k : ℕ}, 0 < k ∧ k < 2 ^ 16 → htons (BitVec.ofNat 32 k) ≠ 0 := fun {k} hk => by
    have := htons_apart hk.2 (show 0 < 2 ^ 16 by norm_num) (by omega)
    rwa [htons_ofNat 0] at this
  exact ⟨rfl, fun i => by simp only [deployPorts, (h.named i).1], fun i => by simp only [deployPorts, (h.named i).2], z ll, z l0, z l1,
    htons_apart ll.2 l0.2 (Ne.symm ha.1.2), htons_apart ll.2 l1.2 (Ne.symm ha.2), htons_apart l0.2 l1.2 ha.1.1⟩

/-! ## C84 -/

/-- C84: two servers started with the numbers 0 and 1 and the same width, and any number of runs of the client program, of any operations but FREQ, one
after the other: in every schedule both servers serve them all, and for every run server 0 answers with what the client program prints, which is the right
statistic of the values submitted; server 1 has no answer. -/
theorem C84_session {argv0 argv1 : List String} {port0 port1 link w : ℕ} (h0 : ServerAsked argv0 0 port0 link w) (h1 : ServerAsked argv1 1 port1 link w)
    {g0 g1 : StoreRng} (hg : GoodRng intModulus g0) (gen : Bytes → ℕ → ℤ) {draw : ℤ} (hd : Canon draw intModulus) (d0 : ℤ) (seed mine : Bytes)
    (rs : List ClientRun) (hr : ∀ r ∈ rs, r.Fine w ∧ r.op ≠ .freq) :
    ∃ P0 P1 as qs s0 s1, serverProgram argv0 g0 d0 seed.length seed gen (rs.map (·.e0)) = some P0 ∧
      serverProgram argv1 g1 draw seed.length mine gen (rs.map (·.e1)) = some P1 ∧ Always P0 P1 (as, s0) (qs, s1) ∧
      List.Forall₂ ClientRun.Answered rs as ∧ qs.length = rs.length ∧ ∀ q ∈ qs, NoAnswer q := by
  obtain ⟨as, qs, s0', s1', y', hP, -, ha, hl, hq⟩ := runs_pair ⟨cacheSize, w, true⟩ (g1 := g1) hg (gen seed) rs hr (start_inStep hd)
  refine ⟨_, _, as, qs, s0', s1', by rw [serverProgram, h0.starts (by norm_num)], by rw [serverProgram, h1.starts (by norm_num)], ?_, ha, hl, hq⟩
  unfold startedServer
  rw [serverMain_eq, serverMain_eq]
  exact ((main_prelude hd d0 seed mine).bind hP).always

/-- C84 with a last run of FREQ, whose validity bytes stay behind in the channel (C47, C75). -/
theorem C84_freq_last {argv0 argv1 : List String} {port0 port1 link w : ℕ} (h0 : ServerAsked argv0 0 port0 link w) (h1 : ServerAsked argv1 1 port1 link w)
    {g0 g1 : StoreRng} (hg : GoodRng intModulus g0) (gen : Bytes → ℕ → ℤ) {draw : ℤ} (hd : Canon draw intModulus) (d0 : ℤ) (seed mine : Bytes)
    (rs : List ClientRun) (hr : ∀ r ∈ rs, r.Fine w ∧ r.op ≠ .freq) {f : ClientRun} (hf : f.Fine w) (ho : f.op = .freq) :
    ∃ P0 P1 as qs s0 s1, serverProgram argv0 g0 d0 seed.length seed gen ((rs ++ [f]).map (·.e0)) = some P0 ∧
      serverProgram argv1 g1 draw seed.length mine gen ((rs ++ [f]).map (·.e1)) = some P1 ∧
      Ends P0 P1 (as, s0) (qs, s1) (encBools (List.replicate f.n true)) [] ∧
      List.Forall₂ ClientRun.Answered (rs ++ [f]) as ∧ qs.length = rs.length + 1 ∧ ∀ q ∈ qs, NoAnswer q := by
  obtain ⟨as, qs, s0', s1', hP, ha, hl, hq⟩ := runs_freq_left ⟨cacheSize, w, true⟩ (g1 := g1) hg (gen seed) hf ho rs hr (start_inStep hd)
  refine ⟨_, _, as, qs, s0', s1', by rw [serverProgram, h0.starts (by norm_num)], by rw [serverProgram, h1.starts (by norm_num)], ?_, ha, hl, hq⟩
  unfold startedServer
  rw [serverMain_eq, serverMain_eq]
  exact ((main_prelude hd d0 seed mine).bindLeft hP).ends

/-- C84 with the connections: if the ports on the command lines fit together and no two runs of the client overlap while they connect, the connections
which the servers take are those of the same runs in the same order, and these are answered as above. -/
theorem C84_deployment {argv0 argv1 : List String} {port0 port1 link w : ℕ} (h0 : ServerAsked argv0 0 port0 link w) (h1 : ServerAsked argv1 1 port1 link w)
    {g0 g1 : StoreRng} (hg : GoodRng intModulus g0) (gen : Bytes → ℕ → ℤ) {draw : ℤ} (hd : Canon draw intModulus) (d0 : ℤ) (seed mine : Bytes)
    (r : ℕ → ClientRun) (hr : ∀ i, (r i).Fine w ∧ (r i).op ≠ .freq) (hp : PortsGiven port0 port1 link r) {s : Net}
    (hs : Orderly (deployPorts port0 port1 link r) s) (hlen : s.took0.length = s.took1.length) (other : Env) :
    ∃ (ids : List ℕ) (P0 P1 : Proc (List Answer × Srv)) (as qs : List Answer) (s0 s1 : Srv), s.took0 = ids.map .first ∧ s.took1 = ids.map .second ∧
      serverProgram argv0 g0 d0 seed.length seed gen (s.took0.map (servedEnv r other)) = some P0 ∧
      serverProgram argv1 g1 draw seed.length mine gen (s.took1.map (servedEnv r other)) = some P1 ∧ Always P0 P1 (as, s0) (qs, s1) ∧
      List.Forall₂ (fun i a => (r i).Answered a) ids as ∧ qs.length = ids.length ∧ ∀ q ∈ qs, NoAnswer q := by
  obtain ⟨ids, e0, e1⟩ := hs.ids hp.ok hlen
  obtain ⟨P0, P1, as, qs, s0, s1, p0, p1, hA, ha, hl, hq⟩ := C84_session h0 h1 (g1 := g1) hg gen hd d0 seed mine (ids.map r)
    (fun q hq => by obtain ⟨i, -, rfl⟩ := List.mem_map.1 hq; exact hr i)
  refine ⟨ids, P0, P1, as, qs, s0, s1, e0, e1, ?_, ?_, hA, ?_, by simpa using hl, hq⟩
  · rw [e0, ← p0, List.map_map, List.map_map]; rfl
  · rw [e1, ← p1, List.map_map, List.map_map]; rfl
  · exact List.forall₂_map_left_iff.1 ha

/-! ## Examples -/

/-- The bytes sent to one of the servers. -/
def ClientEnd.bytes (sv : Bool) : ClientEnd → Bytes
  | .sent b0 b1 _ => if sv then b1 else b0
  | _ => []

/-- A run with the generator `plainPrg`, whose bytes arrive. -/
noncomputable def plainRun (t : RootTables) (rand : ℕ → SnipRand) (op : OpName) (sn sb : String) (n b : ℕ) : ClientRun :=
  let argv := ["client", sn, "8800", "8801", op.arg, sb]
  let env : ClientEnv := ⟨plainPrg, 0#32, 0#32, t, rand, false⟩
  ⟨argv, env, op, n, 8800, 8801, b, 2, plainEnv ((clientMain env argv).bytes false), plainEnv ((clientMain env argv).bytes true)⟩

theorem plainRun_fine {t : RootTables} {rand : ℕ → SnipRand} {op : OpName} {sn sb : String} {n b w : ℕ} (hn : Writes sn n) (hb : Writes sb b)
    (ln : n < 2 ^ 31) (hc : (plainRun t rand op sn sb n b).blocks * n < 2 ^ 64) (hs : (plainRun t rand op sn sb n b).Sized w) :
    (plainRun t rand op sn sb n b).Fine w := by
  have writes8800 : Writes "8800" 8800 := ⟨by decide, by decide, by decide⟩
  have writes8801 : Writes "8801" 8801 := ⟨by decide, by decide, by decide⟩
  refine ⟨⟨"client", sn, "8800", "8801", sb, hn, writes8800, writes8801, hb, ln, by simp [plainRun],
    by simp [plainRun], .inl ⟨rfl, rfl⟩⟩, plainPrg_steady, plainPrg_injective, ?_, hs, ?_, fun α m => List.Perm.refl _, ⟨by simp [plainRun, plainEnv], by simp only [plainRun, plainEnv]; decide⟩⟩
  · simpa [plainRun, plainPrg] using hc
  · intro b0 b1 shown h
    simp only [plainRun] at h ⊢
    rw [h]
    exact ⟨rfl, rfl⟩

/-- Two servers with width 2 and runs of BIT_SUM, INT_SUM, MAX and VAR, and one of FREQ at the end, meet the hypotheses. -/
example : ∃ (t : RootTables) (rand : ℕ → SnipRand), ServerAsked ["server", "0", "8800", "8888", "2"] 0 8800 8888 2 ∧
    ServerAsked ["server", "1", "8801", "8888", "2"] 1 8801 8888 2 ∧
    (∀ r ∈ [plainRun t rand .bitSum "1000" "7" 1000 7, plainRun t rand .intSum "3000" "2" 3000 2, plainRun t rand .max "2" "2" 2 2,
      plainRun t rand .var "3" "2" 3 2], r.Fine 2 ∧ r.op ≠ .freq) ∧
    (plainRun t rand .freq "50" "02" 50 2).Fine 2 ∧
    PortsGiven 8800 8801 8888 fun _ => plainRun t rand .bitSum "1000" "7" 1000 7 := by
  obtain ⟨t, ht⟩ := C30_sizes (c := varCircuit) varCircuit_ok.small [] _ .start
  have ht' : RootCalls (2 :: []) t := ht
  have hv : ValidRand intModulus varCircuit ⟨1, 2, [3, 4], 5, 6, 7, [8], 9, 10, 11, 12, 13⟩ := by
    refine ⟨rfl, rfl, ?_, ?_, ?_, ?_⟩ <;> simp only [IsDraw] <;> decide
  refine ⟨t, fun _ => ⟨1, 2, [3, 4], 5, 6, 7, [8], 9, 10, 11, 12, 13⟩, ?_, ?_, ?_, ?_, ⟨by simp, by simp, fun _ => ⟨rfl, rfl⟩⟩⟩
  · exact ⟨_, _, _, _, _, _, rfl, ⟨by decide, by decide, by decide⟩, ⟨by decide, by decide, by decide⟩, ⟨by decide, by decide, by decide⟩,
      ⟨by decide, by decide, by decide⟩, by norm_num, by norm_num, by norm_num⟩
  · exact ⟨_, _, _, _, _, _, rfl, ⟨by decide, by decide, by decide⟩, ⟨by decide, by decide, by decide⟩, ⟨by decide, by decide, by decide⟩,
      ⟨by decide, by decide, by decide⟩, by norm_num, by norm_num, by norm_num⟩
  · intro r hr
    simp only [List.mem_cons, List.not_mem_nil, or_false] at hr
    rcases hr with rfl | rfl | rfl | rfl
    · exact ⟨plainRun_fine ⟨by decide, by decide, by decide⟩ ⟨by decide, by decide, by decide⟩ (by norm_num) (by simp [plainRun, ClientRun.blocks])
        (by simp [plainRun, ClientRun.Sized]), by simp [plainRun]⟩
    · exact ⟨plainRun_fine ⟨by decide, by decide, by decide⟩ ⟨by decide, by decide, by decide⟩ (by norm_num) (by simp [plainRun, ClientRun.blocks])
        (by simp [plainRun, ClientRun.Sized]), by simp [plainRun]⟩
    · refine ⟨plainRun_fine ⟨by decide, by decide, by decide⟩ ⟨by decide, by decide, by decide⟩ (by norm_num) (by simp [plainRun, ClientRun.blocks])
        ⟨rfl, by norm_num, by simp [plainRun], by simp [plainRun], ?_⟩, by simp [plainRun]⟩
      have key : ∀ v ≤ 4, (∃ q ∈ uploadLoop (maxOne true (2 ^ 2)) 2 plainPrg, q.real.1 = v) →
          xorAll (columnWords v (maxPos true (2 ^ 2) v) (uploadLoop (maxOne true (2 ^ 2)) 2 plainPrg)) ≠ 0#64 := by decide +kernel
      intro v hv _
      refine key v ?_ hv
      obtain ⟨q, hq, rfl⟩ := hv
      have all : ∀ q ∈ uploadLoop (maxOne true (2 ^ 2)) 2 plainPrg, q.real.1 ≤ 4 := by decide +kernel
      exact all q hq
    · refine ⟨plainRun_fine ⟨by decide, by decide, by decide⟩ ⟨by decide, by decide, by decide⟩ (by norm_num) (by simp [plainRun, ClientRun.blocks])
        ⟨rfl, by norm_num, by simp [plainRun], rfl, ⟨[], ht'⟩, fun i _ => hv, fun rows h => ?_⟩, by simp [plainRun]⟩
      obtain ⟨rows', e, -, -, hvals⟩ := varLoop_rows (nbits := 2) (by norm_num) ht'
        ((⟨plainPrg, 0#32, 0#32, t, fun _ => ⟨1, 2, [3, 4], 5, 6, 7, [8], 9, 10, 11, 12, 13⟩, false⟩ : ClientEnv).rands 3) plainPrg (fun s hs => by
        obtain ⟨i, -, rfl⟩ := rands_mem hs; exact hv)
      obtain rfl : rows' = rows := Option.some.inj (e.symm.trans h)
      have e2 := congrArg (fun l => (l.map (· ^ 2)).sum) hvals
      simp only [List.map_map] at e2
      refine lt_of_eq_of_lt e2 ?_
      have : ∀ x ∈ (varClients ((⟨plainPrg, 0#32, 0#32, t, fun _ => ⟨1, 2, [3, 4], 5, 6, 7, [8], 9, 10, 11, 12, 13⟩, false⟩ : ClientEnv).rands 3) plainPrg).map
          ((· ^ 2) ∘ (·.value 2)), x ≤ 9 := by
        intro x hx
        obtain ⟨q, -, rfl⟩ := List.mem_map.1 hx
        have : q.value 2 < 4 := Nat.mod_lt _ (by norm_num)
        exact Nat.pow_le_pow_left (show q.value 2 ≤ 3 by omega) 2
      refine lt_of_le_of_lt (List.sum_le_card_nsmul _ _ this) ?_
      rw [List.length_map, ← List.length_map (f := (·.rand)), varClients_rand, rands_length]
      decide
  · exact plainRun_fine ⟨by decide, by decide, by decide⟩ ⟨by decide, by decide, by decide⟩ (by norm_num) (by simp [plainRun, ClientRun.blocks])
      ⟨rfl, by norm_num, by simp [plainRun]⟩

end Verif

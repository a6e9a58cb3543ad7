import Verif.LemmasCircuit
import Verif.LemmasPrime
import Mathlib.Tactic.Ring
import Mathlib.Tactic.LinearCombination

/-! # C26, C27: validation circuits and wire sharing -/

namespace Verif

/-! ## Specification (independent of the circuit code) -/

/-- All products of two entries, in the order `x₀x₀, x₀x₁, …, x₁x₁, …`. -/
def pairProducts {F : Type*} [Mul F] : List F → List F
  | [] => []
  | x :: xs => (x :: xs).map (fun y => x * y) ++ pairProducts xs

/-- A regression submission: features, label, pair products, features times label. -/
def regressionRow {F : Type*} [Mul F] (xs : List F) (y : F) : List F :=
  xs ++ [y] ++ pairProducts xs ++ xs.map fun x => y * x

/-- Values modulo `p`. -/
def residues (p : ℕ) (l : List ℤ) : List (ZMod p) := List.map (Int.cast : ℤ → ZMod p) l

/-! ## Lemmas -/

theorem evalGates_append (p : ℕ) : ∀ (gs hs : List Gate) (inps w : List ℤ), evalGates p (gs ++ hs) inps w =
    (evalGates p gs inps w).bind fun w' => evalGates p hs (inps.drop (nIn gs)) w' := by
  intro gs
  induction gs with
  | nil => intro hs inps w; simp [evalGates, nIn]
  | cons g gs ih =>
    intro hs inps w
    cases g with
    | input =>
      cases inps with
      | nil => rfl
      | cons x inps => simp only [List.cons_append, evalGates, ih, nIn, List.countP_cons, Gate.isInput, if_true, List.drop_succ_cons]
    | add l r =>
      simp only [List.cons_append, evalGates, ih, nIn, List.countP_cons, Gate.isInput]
      cases w[l]? <;> cases w[r]? <;> rfl
    | mul l r =>
      simp only [List.cons_append, evalGates, ih, nIn, List.countP_cons, Gate.isInput]
      cases w[l]? <;> cases w[r]? <;> rfl
    | addConst l c =>
      simp only [List.cons_append, evalGates, ih, nIn, List.countP_cons, Gate.isInput]
      cases w[l]? <;> rfl
    | mulConst l c =>
      simp only [List.cons_append, evalGates, ih, nIn, List.countP_cons, Gate.isInput]
      cases w[l]? <;> rfl

theorem evalGates_inputs (p : ℕ) : ∀ (n : ℕ) (inps w : List ℤ), n ≤ inps.length →
    evalGates p (List.replicate n .input) inps w = some (w ++ inps.take n)
  | 0, inps, w, _ => by simp [evalGates]
  | n + 1, [], w, h => by simp at h
  | n + 1, x :: inps, w, h => by
    rw [List.replicate_succ, evalGates, evalGates_inputs p n inps (w ++ [x]) (by simpa using h)]
    simp

/-- Circuits made of `n` inputs and checks on them. -/
inductive Built (p n : ℕ) : List (ℕ × ℕ × ℕ) → Circuit → Prop
  | nil : Built p n [] (Circuit.new n)
  | snoc {cs c i j k c'} : Built p n cs c → i < n → j < n → k < n → c.addCheckMulEqual p i j k = some c' →
      Built p n (cs ++ [(i, j, k)]) c'

theorem Built.wf {p n : ℕ} {cs : List (ℕ × ℕ × ℕ)} {c : Circuit} (h : Built p n cs c) :
    c.WF ∧ n ≤ c.gates.length ∧ c.mulGates.length = cs.length := by
  induction h with
  | nil =>
    obtain ⟨h1, h2, h3, h4⟩ := Circuit.new_spec n
    exact ⟨h1, by simp [h2], by simp [h4]⟩
  | snoc _ hi hj hk hc ih =>
    obtain ⟨w, hn, hm⟩ := ih
    obtain ⟨c'', e, w', g', -, m'⟩ := w.addCheck (p := p) (lt_of_lt_of_le hi hn) (lt_of_lt_of_le hj hn) (lt_of_lt_of_le hk hn)
    rw [hc] at e
    cases e
    exact ⟨w', by rw [g', List.length_append]; omega, by rw [m']; simp [hm]⟩

theorem Built.extend {p n : ℕ} {cs : List (ℕ × ℕ × ℕ)} {c : Circuit} (h : Built p n cs c) {i j k : ℕ} (hi : i < n)
    (hj : j < n) (hk : k < n) : ∃ c', c.addCheckMulEqual p i j k = some c' ∧ Built p n (cs ++ [(i, j, k)]) c' := by
  obtain ⟨w, hn, -⟩ := h.wf
  obtain ⟨c', e, -⟩ := w.addCheck (p := p) (lt_of_lt_of_le hi hn) (lt_of_lt_of_le hj hn) (lt_of_lt_of_le hk hn)
  exact ⟨c', e, .snoc h hi hj hk e⟩

/-- `Eval` on such a circuit. -/
theorem Built.eval {p n : ℕ} [NeZero p] {cs : List (ℕ × ℕ × ℕ)} {c : Circuit} (h : Built p n cs c) {inps : List ℤ}
    (hn : inps.length = n) : ∃ w, evalGates p c.gates inps [] = some w ∧ w.length = c.gates.length ∧
      nIn c.gates = n ∧ (∀ i < n, at0 w i = at0 inps i) ∧
      ((∀ z ∈ c.resultZero, at0 w z = 0) ↔ ∀ t ∈ cs, wireF p inps t.1 * wireF p inps t.2.1 = wireF p inps t.2.2) := by
  induction h with
  | nil =>
    obtain ⟨h1, h2, h3, h4⟩ := Circuit.new_spec n
    refine ⟨inps, ?_, by simp [h2, hn], by simp [h2, nIn, Gate.isInput, List.countP_replicate], fun _ _ => rfl, by simp [h3]⟩
    rw [h2, evalGates_inputs p n inps [] hn.ge, ← hn]; simp
  | @snoc cs c i j k c' hb hi hj hk hc ih =>
    obtain ⟨w, hw, hl, hin, hp, hz⟩ := ih
    obtain ⟨wf, hnl, -⟩ := hb.wf
    obtain ⟨c'', e, w', g', z', m'⟩ := wf.addCheck (p := p) (lt_of_lt_of_le hi hnl) (lt_of_lt_of_le hj hnl) (lt_of_lt_of_le hk hnl)
    rw [hc] at e
    cases e
    have gi : w[i]? = some (at0 inps i) := by rw [at0_get (by omega), hp i hi]
    have gj : w[j]? = some (at0 inps j) := by rw [at0_get (by omega), hp j hj]
    set a := fmod (at0 inps i * at0 inps j) p with ha
    set b := fmod (at0 inps k * fmod (-1) p) p with hb'
    have gk : (w ++ [a])[k]? = some (at0 inps k) := by
      rw [at0_get (by simp; omega), at0_append_left (by omega), hp k hk]
    have ga : (w ++ [a] ++ [b])[c.gates.length]? = some a := by
      rw [List.append_assoc, List.getElem?_append_right (by omega), hl]; simp
    have gb : (w ++ [a] ++ [b])[c.gates.length + 1]? = some b := by
      rw [List.append_assoc, List.getElem?_append_right (by omega), hl]; simp
    refine ⟨w ++ [a] ++ [b] ++ [fmod (a + b) p], ?_, ?_, ?_, ?_, ?_⟩
    · rw [g', evalGates_append, hw, Option.bind_some]
      simp only [evalGates, mulByNegOne, gi, gj, Option.bind_some, ← ha]
      simp only [gk, Option.bind_some, ← hb', ga, gb]
    · rw [g']; simp [hl]
    · rw [g', nIn, List.countP_append]; simp [mulByNegOne, Gate.isInput]; exact hin
    · intro q hq
      rw [List.append_assoc, List.append_assoc, at0_append_left (by omega), hp q hq]
    · have hlast : at0 (w ++ [a] ++ [b] ++ [fmod (a + b) p]) (c.gates.length + 2) = fmod (a + b) p := by
        rw [← hl]; have := at0_snoc (w ++ [a] ++ [b]) (fmod (a + b) p); simpa using this
      have hold : ∀ z ∈ c.resultZero, at0 (w ++ [a] ++ [b] ++ [fmod (a + b) p]) z = at0 w z := by
        intro z hz
        rw [List.append_assoc, List.append_assoc, at0_append_left (by rw [hl]; exact wf.zeros z hz)]
      have hcheck : fmod (a + b) p = 0 ↔ wireF p inps i * wireF p inps j = wireF p inps k := by
        rw [fmod_eq_zero_iff, ha, hb']
        push_cast [fmod_cast]
        unfold wireF
        constructor
        · intro h; linear_combination h
        · intro h; linear_combination h
      rw [z']
      simp only [List.mem_append, List.mem_singleton, or_imp, forall_and, forall_eq, hlast, hcheck]
      rw [← hz]
      exact and_congr_left' ⟨fun h z hz => by rw [← hold z hz]; exact h z hz, fun h z hz => by rw [hold z hz]; exact h z hz⟩

/-- Result of `Eval` from the wires. -/
theorem eval_of_wires {p : ℕ} {c : Circuit} (wf : c.WF) {inps w : List ℤ} (h : evalGates p c.gates inps [] = some w) :
    ∃ b, c.eval p inps = some (w, b) ∧ (b = true ↔ ∀ z ∈ c.resultZero, at0 w z = 0) := by
  have hl := (evalGates_all h).1
  refine ⟨_, by rw [Circuit.eval, h, Option.bind_some, wiresAt_spec fun i hi => by rw [hl]; exact wf.zeros i hi]; rfl, ?_⟩
  simp

/-! ### The loops of `CheckLinReg` -/

def innerCs (i j idx n : ℕ) : List (ℕ × ℕ × ℕ) := (List.range n).map fun t => (i, j + t, idx + t)

theorem innerCs_succ (i j idx n : ℕ) : innerCs i j idx (n + 1) = (i, j, idx) :: innerCs i (j + 1) (idx + 1) n := by
  simp only [innerCs, List.range_succ_eq_map, List.map_cons, List.map_map, Nat.add_zero, List.cons.injEq, true_and]
  apply List.map_congr_left
  intro t _
  simp only [Function.comp, Prod.mk.injEq, true_and]; omega

def outerCs (numX : ℕ) : ℕ → ℕ → ℕ → List (ℕ × ℕ × ℕ)
  | 0, _, _ => []
  | n + 1, i, idx => innerCs i i idx (numX - i) ++ outerCs numX n (i + 1) (idx + (numX - i))

theorem linRegInner_built {p m : ℕ} (i : ℕ) : ∀ (n j : ℕ) (c : Circuit) (idx : ℕ) (cs : List (ℕ × ℕ × ℕ)), Built p m cs c →
    i < m → j + n ≤ m → idx + n ≤ m →
    ∃ c', linRegInner p i n j (c, idx) = some (c', idx + n) ∧ Built p m (cs ++ innerCs i j idx n) c' := by
  intro n
  induction n with
  | zero => intro j c idx cs h _ _ _; exact ⟨c, rfl, by simpa [innerCs] using h⟩
  | succ n ih =>
    intro j c idx cs h hi hj hk
    obtain ⟨c1, e1, h1⟩ := h.extend hi (show j < m by omega) (show idx < m by omega)
    obtain ⟨c2, e2, h2⟩ := ih (j + 1) c1 (idx + 1) _ h1 hi (by omega) (by omega)
    refine ⟨c2, ?_, ?_⟩
    · rw [linRegInner, e1, Option.bind_some, e2]; congr 2; omega
    · rw [innerCs_succ]; simpa using h2

/-- Entries consumed by `n` rounds starting at `i`. -/
def outerLen (numX : ℕ) : ℕ → ℕ → ℕ
  | 0, _ => 0
  | n + 1, i => (numX - i) + outerLen numX n (i + 1)

theorem linRegOuter_built {p m numX : ℕ} : ∀ (n i : ℕ) (c : Circuit) (idx : ℕ) (cs : List (ℕ × ℕ × ℕ)), Built p m cs c →
    i + n ≤ numX → numX ≤ m → idx + outerLen numX n i ≤ m →
    ∃ c', linRegOuter p numX n i (c, idx) = some (c', idx + outerLen numX n i) ∧ Built p m (cs ++ outerCs numX n i idx) c' := by
  intro n
  induction n with
  | zero => intro i c idx cs h _ _ _; exact ⟨c, rfl, by simpa [outerCs] using h⟩
  | succ n ih =>
    intro i c idx cs h hi hm hk
    rw [outerLen] at hk
    obtain ⟨c1, e1, h1⟩ := linRegInner_built (p := p) (m := m) i (numX - i) i c idx cs h (by omega) (by omega) (by omega)
    obtain ⟨c2, e2, h2⟩ := ih (i + 1) c1 (idx + (numX - i)) _ h1 (by omega) hm (by omega)
    refine ⟨c2, ?_, ?_⟩
    · rw [linRegOuter, e1, Option.bind_some, e2, outerLen]; congr 2; omega
    · rw [outerCs]; simpa using h2

def lastCs (numX idx n i : ℕ) : List (ℕ × ℕ × ℕ) := (List.range n).map fun t => (numX, i + t, idx + i + t)

theorem linRegLast_built {p m numX idx : ℕ} (hx : numX < m) : ∀ (n i : ℕ) (c : Circuit) (cs : List (ℕ × ℕ × ℕ)), Built p m cs c →
    i + n ≤ m → idx + i + n ≤ m →
    ∃ c', linRegLast p numX idx n i c = some c' ∧ Built p m (cs ++ lastCs numX idx n i) c' := by
  intro n
  induction n with
  | zero => intro i c cs h _ _; exact ⟨c, rfl, by simpa [lastCs] using h⟩
  | succ n ih =>
    intro i c cs h hi hk
    obtain ⟨c1, e1, h1⟩ := h.extend hx (show i < m by omega) (show idx + i < m by omega)
    obtain ⟨c2, e2, h2⟩ := ih (i + 1) c1 _ h1 (by omega) (by omega)
    refine ⟨c2, by rw [linRegLast, e1, Option.bind_some, e2], ?_⟩
    have : lastCs numX idx (n + 1) i = (numX, i, idx + i) :: lastCs numX idx n (i + 1) := by
      simp only [lastCs, List.range_succ_eq_map, List.map_cons, List.map_map, Nat.add_zero, List.cons.injEq, true_and]
      apply List.map_congr_left
      intro t _
      simp only [Function.comp, Prod.mk.injEq, true_and]; omega
    rw [this]; simpa using h2

theorem outerLen_eq (numX : ℕ) : ∀ n i, i + n = numX → outerLen numX n i = n * (n + 1) / 2
  | 0, _, _ => rfl
  | n + 1, i, h => by
    rw [outerLen, outerLen_eq numX n (i + 1) (by omega)]
    have : (n + 1) * (n + 1 + 1) = n * (n + 1) + (n + 1) * 2 := by ring
    rw [this, Nat.add_mul_div_right _ _ (by norm_num)]
    omega

theorem innerCs_sat {F : Type*} [CommRing F] (v : ℕ → F) (i j idx n : ℕ) :
    (∀ t ∈ innerCs i j idx n, v t.1 * v t.2.1 = v t.2.2) ↔
      (List.range' idx n).map v = ((List.range' j n).map v).map fun y => v i * y := by
  induction n generalizing j idx with
  | zero => simp [innerCs]
  | succ n ih =>
    rw [innerCs_succ, List.forall_mem_cons, ih]
    simp only [List.range'_succ, List.map_cons, List.cons.injEq]
    exact and_congr_left' eq_comm

theorem outerCs_sat {F : Type*} [CommRing F] (v : ℕ → F) (numX : ℕ) : ∀ (n i idx : ℕ), i + n = numX →
    ((∀ t ∈ outerCs numX n i idx, v t.1 * v t.2.1 = v t.2.2) ↔
      (List.range' idx (outerLen numX n i)).map v = pairProducts ((List.range' i n).map v)) := by
  intro n
  induction n with
  | zero => intro i idx _; simp [outerCs, outerLen, pairProducts]
  | succ n ih =>
    intro i idx h
    simp only [outerCs, outerLen, List.mem_append, or_imp, forall_and]
    rw [innerCs_sat, ih (i + 1) _ (by omega)]
    have hsplit : List.range' idx (numX - i + outerLen numX n (i + 1)) =
        List.range' idx (numX - i) ++ List.range' (idx + (numX - i)) (outerLen numX n (i + 1)) := by
      rw [List.range'_append_1]
    have hni : numX - i = n + 1 := by omega
    rw [hsplit, List.map_append, List.range'_succ (s := i), List.map_cons, pairProducts]
    rw [hni, List.range'_succ (s := i), List.map_cons]
    constructor
    · rintro ⟨h1, h2⟩; rw [h1, h2]
    · intro h; exact List.append_inj h (by simp)

theorem lastCs_sat {F : Type*} [CommRing F] (v : ℕ → F) (numX idx n i : ℕ) :
    (∀ t ∈ lastCs numX idx n i, v t.1 * v t.2.1 = v t.2.2) ↔
      (List.range' (idx + i) n).map v = ((List.range' i n).map v).map fun x => v numX * x := innerCs_sat v numX i (idx + i) n

theorem residues_eq_map (p : ℕ) (l : List ℤ) : residues p l = (List.range' 0 l.length).map (wireF p l) := by
  apply List.ext_getElem
  · simp [residues]
  · intro i h1 h2
    simp [residues] at h1 ⊢
    simp [wireF, at0, List.getD_eq_getElem?_getD, List.getElem?_eq_getElem h1]

/-- `CheckLinReg(d)` is built from the listed checks. -/
theorem checkLinReg_built {p d : ℕ} (hd : 1 ≤ d) (hs : numFields d < 2 ^ 32) : ∃ c, checkLinReg p d = some c ∧
    Built p (numFields d) (outerCs (d - 1) (d - 1) 0 d ++ lastCs (d - 1) (d + (d - 1) * (d - 1 + 1) / 2) (d - 1) 0) c := by
  have hlen : outerLen (d - 1) (d - 1) 0 = (d - 1) * (d - 1 + 1) / 2 := outerLen_eq _ _ _ (by omega)
  have hm : numFields d = 2 * (d - 1) + 1 + (d - 1) * (d - 1 + 1) / 2 := rfl
  generalize (d - 1) * (d - 1 + 1) / 2 = T at *
  obtain ⟨c1, e1, h1⟩ := linRegOuter_built (p := p) (m := numFields d) (numX := d - 1) (d - 1) 0 (Circuit.new (numFields d)) d []
    .nil (by omega) (by omega) (by omega)
  rw [hlen] at e1
  obtain ⟨c2, e2, h2⟩ := linRegLast_built (p := p) (m := numFields d) (numX := d - 1) (idx := d + T) (by omega) (d - 1) 0 c1 _ h1
    (by omega) (by omega)
  refine ⟨c2, ?_, by simpa using h2⟩
  rw [checkLinReg, if_neg (by omega)]
  simp only [e1, Option.bind_some, e2]

/-! ## C26 -/

/-- `CheckVar()`: built without fault, two inputs, one multiplication gate; accepts `(x, y)` iff `y = x²` modulo `p`. -/
theorem C26_checkVar (x y : ℤ) : ∃ c w b, checkVar intModulus = some c ∧ c.mulGates.length = 1 ∧
    c.eval intModulus [x, y] = some (w, b) ∧ (b = true ↔ (y : ZMod intModulus) = (x : ZMod intModulus) ^ 2) := by
  obtain ⟨c, e, h⟩ := (Built.nil (p := intModulus) (n := 2)).extend (show 0 < 2 by omega) (show 0 < 2 by omega)
    (show 1 < 2 by omega)
  obtain ⟨w, hw, -, -, -, hz⟩ := h.eval (inps := [x, y]) rfl
  obtain ⟨b, hb, hb'⟩ := eval_of_wires h.wf.1 hw
  refine ⟨c, w, b, e, h.wf.2.2, hb, ?_⟩
  rw [hb', hz]
  simp [wireF, at0, pow_two, eq_comm]

/-- `CheckLinReg(d)` for `d ≥ 1` (and a number of fields within the 32-bit counters): built without fault, with
`d(d-1)/2 + (d-1)` multiplication gates; reads exactly the `numFields d` inputs and accepts them iff, modulo `p`, they have
the form `x₀ … x_{d-2}, y, (xᵢxⱼ)_{i≤j}, (y·xᵢ)`. -/
theorem C26_checkLinReg {d : ℕ} (hd : 1 ≤ d) (hs : numFields d < 2 ^ 32) : ∃ c, checkLinReg intModulus d = some c ∧
    c.mulGates.length = d * (d - 1) / 2 + (d - 1) ∧
    ∀ inps : List ℤ, inps.length = numFields d → ∃ w b, c.eval intModulus inps = some (w, b) ∧
      (b = true ↔ ∃ xs y, xs.length = d - 1 ∧ residues intModulus inps = regressionRow xs y) := by
  obtain ⟨c, e, h⟩ := checkLinReg_built (p := intModulus) hd hs
  refine ⟨c, e, ?_, fun inps hl => ?_⟩
  · rw [h.wf.2.2, List.length_append]
    have : ∀ numX n i idx, (outerCs numX n i idx).length = outerLen numX n i := by
      intro numX n
      induction n with
      | zero => intros; rfl
      | succ n ih => intro i idx; rw [outerCs, outerLen, List.length_append, ih]; simp [innerCs]
    rw [this, outerLen_eq _ _ _ (by omega)]
    obtain ⟨d, rfl⟩ : ∃ e, d = e + 1 := ⟨d - 1, by omega⟩
    simp [lastCs, mul_comm]
  · obtain ⟨w, hw, -, -, -, hz⟩ := h.eval hl
    obtain ⟨b, hb, hb'⟩ := eval_of_wires h.wf.1 hw
    refine ⟨w, b, hb, ?_⟩
    rw [hb', hz]
    simp only [List.mem_append, or_imp, forall_and]
    have hlen : outerLen (d - 1) (d - 1) 0 = (d - 1) * (d - 1 + 1) / 2 := outerLen_eq _ _ _ (by omega)
    rw [outerCs_sat _ _ _ _ _ (by omega), lastCs_sat, hlen]
    have hm : numFields d = 2 * (d - 1) + 1 + (d - 1) * (d - 1 + 1) / 2 := rfl
    generalize (d - 1) * (d - 1 + 1) / 2 = T at *
    set v := wireF intModulus inps
    have hres : residues intModulus inps = (List.range' 0 (d - 1)).map v ++ [v (d - 1)] ++ (List.range' d T).map v ++
        (List.range' (d + T) (d - 1)).map v := by
      have : inps.length = (d - 1) + 1 + T + (d - 1) := by omega
      rw [residues_eq_map, this, ← List.range'_append_1, ← List.range'_append_1, ← List.range'_append_1]
      simp only [List.map_append, Nat.zero_add, List.range'_one, List.map_cons, List.map_nil]
      rw [show d - 1 + 1 = d by omega]
    rw [hres]
    constructor
    · rintro ⟨h1, h2⟩
      refine ⟨(List.range' 0 (d - 1)).map v, v (d - 1), by simp, ?_⟩
      rw [regressionRow, h1]
      congr 1
    · rintro ⟨xs, y, hx, hr⟩
      rw [regressionRow] at hr
      have hpl : ∀ (l : List (ZMod intModulus)), (pairProducts l).length = l.length * (l.length + 1) / 2 := by
        intro l
        induction l with
        | nil => rfl
        | cons a l ih =>
          simp only [pairProducts, List.length_append, List.length_map, List.length_cons, ih]
          have : (l.length + 1) * (l.length + 1 + 1) = l.length * (l.length + 1) + (l.length + 1) * 2 := by ring
          rw [this, Nat.add_mul_div_right _ _ (by norm_num)]; omega
      obtain ⟨h3, h4⟩ := List.append_inj' hr (by simp [hx])
      obtain ⟨h5, h6⟩ := List.append_inj h3 (by simp [hx])
      obtain ⟨h7, h8⟩ := List.append_inj h5 (by simp [hx])
      simp only [List.cons.injEq, and_true] at h8
      subst h7 h8
      exact ⟨h6, h4⟩

example : (1 : ℕ) ≤ 3 ∧ numFields 3 < 2 ^ 32 ∧ regressionRow [2, 3] (5 : ZMod intModulus) = [2, 3, 5, 4, 6, 9, 10, 15] := by
  refine ⟨by norm_num, by decide, ?_⟩
  norm_num [regressionRow, pairProducts]

/-! ## C27 -/

/-- `Eval` has an input for every input gate. -/
theorem nIn_le_of_eval {p : ℕ} {gs : List Gate} {inps w : List ℤ} (hw : evalGates p gs inps [] = some w) :
    nIn gs ≤ inps.length := by
  obtain ⟨hwl, hrel⟩ := evalGates_all hw
  by_contra hcon
  -- the last input gate would have no input
  have hex : ∀ n, n < nIn gs → ∃ k, k < gs.length ∧ gs[k]? = some .input ∧ nIn (gs.take k) = n := by
    intro n hn
    have : ∀ gs : List Gate, n < nIn gs → ∃ k, k < gs.length ∧ gs[k]? = some .input ∧ nIn (gs.take k) = n := by
      intro gs
      induction gs using List.reverseRecOn with
      | nil => intro h; simp [nIn] at h
      | append_singleton gs g ih =>
        intro h
        rw [nIn_snoc] at h
        by_cases hlt : n < nIn gs
        · obtain ⟨k, h1, h2, h3⟩ := ih hlt
          exact ⟨k, by simp; omega, by rw [List.getElem?_append_left h1]; exact h2,
            by rw [List.take_append_of_le_length h1.le]; exact h3⟩
        · cases g <;> simp [Gate.isInput] at h <;> try omega
          exact ⟨gs.length, by simp, by simp, by rw [List.take_append_of_le_length le_rfl, List.take_length]; omega⟩
    exact this _ hn
  obtain ⟨k, hk, hg, hn⟩ := hex inps.length (by omega)
  have := hrel k hk
  simp only [EvalRel, hg, hn] at this
  have := (getElem?_at0 this).1
  omega


/-- For every well-formed circuit: whenever `Eval` runs on the inputs, the input shares add up to the inputs and the
`MulShares` of the two packets add up to the values of the multiplication gates, then `ImportWires` succeeds on both servers
and every wire's shares add up, modulo `p`, to the value computed by `Eval`. -/
theorem C27_wires {c : Circuit} (wf : c.WF) {inps w i0 i1 m0 m1 mv : List ℤ}
    (hw : evalGates intModulus c.gates inps [] = some w)
    (hl0 : i0.length = inps.length) (hl1 : i1.length = inps.length)
    (hi : ∀ k < inps.length, (at0 i0 k + at0 i1 k : ZMod intModulus) = at0 inps k)
    (hmv : wiresAt w c.mulGates = some mv) (hm0 : m0.length = mv.length) (hm1 : m1.length = mv.length)
    (hm : ∀ k < mv.length, (at0 m0 k + at0 m1 k : ZMod intModulus) = at0 mv k) :
    ∃ w0 w1, c.importWires intModulus false i0 m0 = some w0 ∧ c.importWires intModulus true i1 m1 = some w1 ∧
      w0.length = w.length ∧ w1.length = w.length ∧
      ∀ k < w.length, (at0 w0 k + at0 w1 k : ZMod intModulus) = at0 w k := by
  obtain ⟨hwl, hrel⟩ := evalGates_all hw
  have hml : mv = c.mulGates.map (at0 w) := by
    have := wiresAt_spec (w := w) (is := c.mulGates) fun i hi => by
      obtain ⟨_, _, _, _, _, h⟩ := wf.mul_getElem hi; omega
    rw [this] at hmv; cases hmv; rfl
  have hin : nIn c.gates ≤ inps.length := nIn_le_of_eval hw
  have hnm : nMul c.gates = mv.length := by rw [wf.nMul_eq, hml]; simp
  obtain ⟨w0, h0⟩ := importGates_total intModulus false c.gates [] i0 m0 [] rfl (by simpa using wf.parents) (by omega) (by omega)
  obtain ⟨w1, h1⟩ := importGates_total intModulus true c.gates [] i1 m1 [] rfl (by simpa using wf.parents) (by omega) (by omega)
  obtain ⟨l0, r0⟩ := importGates_all h0
  obtain ⟨l1, r1⟩ := importGates_all h1
  refine ⟨w0, w1, h0, h1, by omega, by omega, ?_⟩
  rw [hwl]
  refine lin_unique (F := ZMod intModulus) wf.parents (inp' := wireF intModulus inps) (v := wireF intModulus w) ?_
    (fun k hk => (import_lin (r0 k hk) (r1 k hk)).1) (fun k hk => (eval_lin (hrel k hk)).1) ?_
  · intro i hi'
    exact hi i (by omega)
  · intro k l r hg _
    have hk := (List.getElem?_eq_some_iff.mp hg).1
    obtain ⟨e0, e1⟩ := (import_lin (r0 k hk) (r1 k hk)).2 l r hg
    have hidx := wf.mul_idx hg
    have hlt : nMul (c.gates.take k) < mv.length := by
      rw [hml, List.length_map]; exact (List.getElem?_eq_some_iff.mp hidx).1
    have := hm _ hlt
    unfold wireF
    rw [e0, e1, this, hml]
    simp [at0, List.getD_eq_getElem?_getD, hidx]

/-- `GetMulShares` gives such shares, for all draws. -/
theorem C27_getMulShares {c : Circuit} {w draws mv : List ℤ} (hmv : wiresAt w c.mulGates = some mv)
    (hd : draws.length = mv.length) : ∃ m0 m1, c.getMulShares intModulus w draws = some (m0, m1) ∧
      m0.length = mv.length ∧ m1.length = mv.length ∧
      ∀ k < mv.length, (at0 m0 k + at0 m1 k : ZMod intModulus) = at0 mv k := by
  refine ⟨_, _, by rw [Circuit.getMulShares, hmv]; rfl, by simp [hd], by simp [hd], fun k hk => ?_⟩
  have hk' : k < draws.length := by omega
  simp [at0, List.getD_eq_getElem?_getD, splitShare, List.getElem?_zipWith, List.getElem?_eq_getElem hk,
    List.getElem?_eq_getElem hk']

/-- The circuits in use are well formed. -/
theorem C27_wf {d : ℕ} (hd : 1 ≤ d) (hs : numFields d < 2 ^ 32) :
    (∃ c, checkVar intModulus = some c ∧ c.WF) ∧ ∃ c, checkLinReg intModulus d = some c ∧ c.WF := by
  obtain ⟨c, e, h⟩ := (Built.nil (p := intModulus) (n := 2)).extend (show 0 < 2 by omega) (show 0 < 2 by omega)
    (show 1 < 2 by omega)
  obtain ⟨c', e', h'⟩ := checkLinReg_built (p := intModulus) hd hs
  exact ⟨⟨c, e, h.wf.1⟩, ⟨c', e', h'.wf.1⟩⟩

/-- Non-vacuity: x = 3, y = 9 in `CheckVar`, shared. -/
example : ∃ c, checkVar intModulus = some c ∧ evalGates intModulus c.gates [3, 9] [] =
    some [3, 9, 9, 140737597931512, 0] ∧ wiresAt [3, 9, 9, 140737597931512, 0] c.mulGates = some [9] :=
  ⟨_, rfl, by decide +kernel, by decide⟩

end Verif

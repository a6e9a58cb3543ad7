import Verif.ModelCircuit
import Verif.LemmasFmpz

/-! Lemmas on circuits: wire values are determined gate by gate. -/

namespace Verif

def Gate.isInput : Gate → Bool
  | .input => true
  | _ => false

def Gate.isMul : Gate → Bool
  | .mul _ _ => true
  | _ => false

/-- Value at a position of a wire list. -/
def at0 (w : List ℤ) (i : ℕ) : ℤ := w.getD i 0

theorem at0_append_left {w v : List ℤ} {i : ℕ} (h : i < w.length) : at0 (w ++ v) i = at0 w i := by
  simp [at0, List.getD_eq_getElem?_getD, List.getElem?_append_left h]

theorem at0_snoc (w : List ℤ) (x : ℤ) : at0 (w ++ [x]) w.length = x := by
  simp [at0, List.getD_eq_getElem?_getD]

theorem getElem?_at0 {w : List ℤ} {i : ℕ} {a : ℤ} (h : w[i]? = some a) : i < w.length ∧ at0 w i = a := by
  obtain ⟨h1, h2⟩ := List.getElem?_eq_some_iff.mp h
  exact ⟨h1, by simp [at0, List.getD_eq_getElem?_getD, h]⟩

theorem at0_get {w : List ℤ} {i : ℕ} (h : i < w.length) : w[i]? = some (at0 w i) := by
  simp [at0, List.getD_eq_getElem?_getD, List.getElem?_eq_getElem h]

/-- Number of input gates in a list. -/
def nIn (gs : List Gate) : ℕ := gs.countP Gate.isInput
/-- Number of multiplication gates in a list. -/
def nMul (gs : List Gate) : ℕ := gs.countP Gate.isMul

/-- What `Eval` makes of gate `k`. -/
def EvalRel (p : ℕ) (gs : List Gate) (inps w : List ℤ) (k : ℕ) : Prop :=
  match gs[k]? with
  | none => True
  | some .input => inps[nIn (gs.take k)]? = some (at0 w k)
  | some (.add l r) => l < k ∧ r < k ∧ at0 w k = fmod (at0 w l + at0 w r) p
  | some (.mul l r) => l < k ∧ r < k ∧ at0 w k = fmod (at0 w l * at0 w r) p
  | some (.addConst l c) => l < k ∧ at0 w k = fmod (at0 w l + c) p
  | some (.mulConst l c) => l < k ∧ at0 w k = fmod (at0 w l * c) p

/-- What `ImportWires` makes of gate `k`. -/
def ImportRel (p : ℕ) (sv : Bool) (gs : List Gate) (inps muls w : List ℤ) (k : ℕ) : Prop :=
  match gs[k]? with
  | none => True
  | some .input => inps[nIn (gs.take k)]? = some (at0 w k)
  | some (.add l r) => l < k ∧ r < k ∧ at0 w k = fmod (at0 w l + at0 w r) p
  | some (.mul _ _) => muls[nMul (gs.take k)]? = some (at0 w k)
  | some (.addConst l c) => l < k ∧ at0 w k = fmod (if sv then at0 w l else at0 w l + c) p
  | some (.mulConst l c) => l < k ∧ at0 w k = fmod (at0 w l * c) p

/-- Relations of gate `k` depend only on the wires up to `k`. -/
theorem EvalRel.congr {p : ℕ} {gs : List Gate} {inps w v : List ℤ} {k : ℕ} (h : ∀ i ≤ k, at0 v i = at0 w i)
    (hr : EvalRel p gs inps w k) : EvalRel p gs inps v k := by
  unfold EvalRel at *
  split <;> rename_i hg <;> simp only [hg] at hr
  · trivial
  · rw [h k le_rfl]; exact hr
  · exact ⟨hr.1, hr.2.1, by rw [h k le_rfl, h _ hr.1.le, h _ hr.2.1.le]; exact hr.2.2⟩
  · exact ⟨hr.1, hr.2.1, by rw [h k le_rfl, h _ hr.1.le, h _ hr.2.1.le]; exact hr.2.2⟩
  · exact ⟨hr.1, by rw [h k le_rfl, h _ hr.1.le]; exact hr.2⟩
  · exact ⟨hr.1, by rw [h k le_rfl, h _ hr.1.le]; exact hr.2⟩

theorem ImportRel.congr {p : ℕ} {sv : Bool} {gs : List Gate} {inps muls w v : List ℤ} {k : ℕ}
    (h : ∀ i ≤ k, at0 v i = at0 w i) (hr : ImportRel p sv gs inps muls w k) : ImportRel p sv gs inps muls v k := by
  unfold ImportRel at *
  split <;> rename_i hg <;> simp only [hg] at hr
  · trivial
  · rw [h k le_rfl]; exact hr
  · exact ⟨hr.1, hr.2.1, by rw [h k le_rfl, h _ hr.1.le, h _ hr.2.1.le]; exact hr.2.2⟩
  · rw [h k le_rfl]; exact hr
  · exact ⟨hr.1, by rw [h k le_rfl, h _ hr.1.le]; exact hr.2⟩
  · exact ⟨hr.1, by rw [h k le_rfl, h _ hr.1.le]; exact hr.2⟩

theorem nIn_snoc (gs : List Gate) (g : Gate) : nIn (gs ++ [g]) = nIn gs + (if g.isInput then 1 else 0) := by
  simp [nIn, List.countP_cons]
theorem nMul_snoc (gs : List Gate) (g : Gate) : nMul (gs ++ [g]) = nMul gs + (if g.isMul then 1 else 0) := by
  simp [nMul, List.countP_cons]

/-- Common shape of the two induction steps. -/
theorem step_all {P : List ℤ → ℕ → Prop} (cong : ∀ w v k, (∀ i ≤ k, at0 v i = at0 w i) → P w k → P v k)
    {w : List ℤ} {x : ℤ} {w' : List ℤ} (hx : P (w ++ [x]) w.length)
    (ih : (w ++ [x]).length ≤ w'.length ∧ (∀ i < (w ++ [x]).length, at0 w' i = at0 (w ++ [x]) i) ∧
      ∀ k, (w ++ [x]).length ≤ k → k < w'.length → P w' k) :
    w.length ≤ w'.length ∧ (∀ i < w.length, at0 w' i = at0 w i) ∧ ∀ k, w.length ≤ k → k < w'.length → P w' k := by
  obtain ⟨h0, h1, h2⟩ := ih
  have hl : (w ++ [x]).length = w.length + 1 := by simp
  rw [hl] at h0 h1 h2
  refine ⟨by omega, fun i hi => by rw [h1 i (by omega), at0_append_left hi], fun k hk hk' => ?_⟩
  rcases Nat.lt_or_ge w.length k with h | h
  · exact h2 k (by omega) hk'
  · obtain rfl : k = w.length := by omega
    exact cong (w ++ [x]) w' _ (fun i hi => h1 i (by omega)) hx

theorem evalGates_rel (p : ℕ) (inps : List ℤ) : ∀ (rest pre : List Gate) (w w' : List ℤ), w.length = pre.length →
    evalGates p rest (inps.drop (nIn pre)) w = some w' →
    w'.length = (pre ++ rest).length ∧ (w.length ≤ w'.length ∧ (∀ i < w.length, at0 w' i = at0 w i) ∧
      ∀ k, w.length ≤ k → k < w'.length → EvalRel p (pre ++ rest) inps w' k) := by
  intro rest
  induction rest with
  | nil =>
    intro pre w w' hl h
    simp only [evalGates, Option.some.injEq] at h
    subst h
    exact ⟨by simp [hl], le_rfl, fun _ _ => rfl, fun k h1 h2 => absurd h2 (by omega)⟩
  | cons g rest ih =>
    intro pre w w' hl h
    have hg : (pre ++ g :: rest)[w.length]? = some g := by rw [hl]; simp
    have htk : (pre ++ g :: rest).take w.length = pre := by rw [hl]; simp
    have happ : pre ++ g :: rest = (pre ++ [g]) ++ rest := by simp
    have key : ∀ x inps', inps' = inps.drop (nIn (pre ++ [g])) → evalGates p rest inps' (w ++ [x]) = some w' →
        EvalRel p (pre ++ g :: rest) inps (w ++ [x]) w.length →
        w'.length = (pre ++ g :: rest).length ∧ (w.length ≤ w'.length ∧ (∀ i < w.length, at0 w' i = at0 w i) ∧
          ∀ k, w.length ≤ k → k < w'.length → EvalRel p (pre ++ g :: rest) inps w' k) := by
      intro x inps' hi hev hx
      rw [hi] at hev
      have := ih (pre ++ [g]) (w ++ [x]) w' (by simp [hl]) hev
      rw [← happ] at this
      exact ⟨this.1, step_all (P := fun w k => EvalRel p (pre ++ g :: rest) inps w k)
        (fun w v k h => EvalRel.congr h) hx this.2⟩
    have two : ∀ l r : ℕ, ∀ a b, w[l]? = some a → w[r]? = some b → ∀ x,
        l < w.length ∧ r < w.length ∧ at0 (w ++ [x]) l = a ∧ at0 (w ++ [x]) r = b := by
      intro l r a b ha hb x
      obtain ⟨h1, h2⟩ := getElem?_at0 ha
      obtain ⟨h3, h4⟩ := getElem?_at0 hb
      exact ⟨h1, h3, by rw [at0_append_left h1, h2], by rw [at0_append_left h3, h4]⟩
    cases g with
    | input =>
      simp only [evalGates] at h
      split at h
      · cases h
      · rename_i x inps' hd
        refine key x inps' ?_ h ?_
        · rw [nIn_snoc]; simp only [Gate.isInput, if_true]
          rw [← List.drop_drop, hd]; rfl
        · simp only [EvalRel, hg, htk, at0_snoc]
          have := congrArg (fun l => l[0]?) hd
          simpa using this
    | add l r =>
      simp only [evalGates, Option.bind_eq_some_iff] at h
      obtain ⟨a, ha, b, hb, h⟩ := h
      obtain ⟨h1, h2, h3, h4⟩ := two l r a b ha hb (fmod (a + b) p)
      refine key _ _ (by rw [nIn_snoc]; rfl) h ?_
      simp only [EvalRel, hg, at0_snoc, h3, h4]
      exact ⟨h1, h2, trivial⟩
    | mul l r =>
      simp only [evalGates, Option.bind_eq_some_iff] at h
      obtain ⟨a, ha, b, hb, h⟩ := h
      obtain ⟨h1, h2, h3, h4⟩ := two l r a b ha hb (fmod (a * b) p)
      refine key _ _ (by rw [nIn_snoc]; rfl) h ?_
      simp only [EvalRel, hg, at0_snoc, h3, h4]
      exact ⟨h1, h2, trivial⟩
    | addConst l c =>
      simp only [evalGates, Option.bind_eq_some_iff] at h
      obtain ⟨a, ha, h⟩ := h
      obtain ⟨h1, -, h3, -⟩ := two l l a a ha ha (fmod (a + c) p)
      refine key _ _ (by rw [nIn_snoc]; rfl) h ?_
      simp only [EvalRel, hg, at0_snoc, h3]
      exact ⟨h1, trivial⟩
    | mulConst l c =>
      simp only [evalGates, Option.bind_eq_some_iff] at h
      obtain ⟨a, ha, h⟩ := h
      obtain ⟨h1, -, h3, -⟩ := two l l a a ha ha (fmod (a * c) p)
      refine key _ _ (by rw [nIn_snoc]; rfl) h ?_
      simp only [EvalRel, hg, at0_snoc, h3]
      exact ⟨h1, trivial⟩

/-- `Eval`'s loop satisfies the relation of every gate. -/
theorem evalGates_all {p : ℕ} {gs : List Gate} {inps w : List ℤ} (h : evalGates p gs inps [] = some w) :
    w.length = gs.length ∧ ∀ k < gs.length, EvalRel p gs inps w k := by
  have := evalGates_rel p inps gs [] [] w rfl (by simpa [nIn] using h)
  simp only [List.nil_append] at this
  exact ⟨this.1, fun k hk => this.2.2.2 k (by simp) (by omega)⟩

theorem importGates_rel (p : ℕ) (sv : Bool) (inps muls : List ℤ) : ∀ (rest pre : List Gate) (w w' : List ℤ),
    w.length = pre.length →
    importGates p sv rest (inps.drop (nIn pre)) (muls.drop (nMul pre)) w = some w' →
    w'.length = (pre ++ rest).length ∧ (w.length ≤ w'.length ∧ (∀ i < w.length, at0 w' i = at0 w i) ∧
      ∀ k, w.length ≤ k → k < w'.length → ImportRel p sv (pre ++ rest) inps muls w' k) := by
  intro rest
  induction rest with
  | nil =>
    intro pre w w' hl h
    simp only [importGates, Option.some.injEq] at h
    subst h
    exact ⟨by simp [hl], le_rfl, fun _ _ => rfl, fun k h1 h2 => absurd h2 (by omega)⟩
  | cons g rest ih =>
    intro pre w w' hl h
    have hg : (pre ++ g :: rest)[w.length]? = some g := by rw [hl]; simp
    have htk : (pre ++ g :: rest).take w.length = pre := by rw [hl]; simp
    have happ : pre ++ g :: rest = (pre ++ [g]) ++ rest := by simp
    have key : ∀ x inps' muls', inps' = inps.drop (nIn (pre ++ [g])) → muls' = muls.drop (nMul (pre ++ [g])) →
        importGates p sv rest inps' muls' (w ++ [x]) = some w' →
        ImportRel p sv (pre ++ g :: rest) inps muls (w ++ [x]) w.length →
        w'.length = (pre ++ g :: rest).length ∧ (w.length ≤ w'.length ∧ (∀ i < w.length, at0 w' i = at0 w i) ∧
          ∀ k, w.length ≤ k → k < w'.length → ImportRel p sv (pre ++ g :: rest) inps muls w' k) := by
      intro x inps' muls' hi hm hev hx
      rw [hi, hm] at hev
      have := ih (pre ++ [g]) (w ++ [x]) w' (by simp [hl]) hev
      rw [← happ] at this
      exact ⟨this.1, step_all (P := fun w k => ImportRel p sv (pre ++ g :: rest) inps muls w k)
        (fun w v k h => ImportRel.congr h) hx this.2⟩
    have two : ∀ l r : ℕ, ∀ a b, w[l]? = some a → w[r]? = some b → ∀ x,
        l < w.length ∧ r < w.length ∧ at0 (w ++ [x]) l = a ∧ at0 (w ++ [x]) r = b := by
      intro l r a b ha hb x
      obtain ⟨h1, h2⟩ := getElem?_at0 ha
      obtain ⟨h3, h4⟩ := getElem?_at0 hb
      exact ⟨h1, h3, by rw [at0_append_left h1, h2], by rw [at0_append_left h3, h4]⟩
    cases g with
    | input =>
      simp only [importGates] at h
      split at h
      · cases h
      · rename_i x inps' hd
        refine key x inps' _ ?_ (by rw [nMul_snoc]; rfl) h ?_
        · rw [nIn_snoc]; simp only [Gate.isInput, if_true]
          rw [← List.drop_drop, hd]; rfl
        · simp only [ImportRel, hg, htk, at0_snoc]
          have := congrArg (fun l => l[0]?) hd
          simpa using this
    | mul l r =>
      simp only [importGates] at h
      split at h
      · cases h
      · rename_i x muls' hd
        refine key x _ muls' (by rw [nIn_snoc]; rfl) ?_ h ?_
        · rw [nMul_snoc]; simp only [Gate.isMul, if_true]
          rw [← List.drop_drop, hd]; rfl
        · simp only [ImportRel, hg, htk, at0_snoc]
          have := congrArg (fun l => l[0]?) hd
          simpa using this
    | add l r =>
      simp only [importGates, Option.bind_eq_some_iff] at h
      obtain ⟨a, ha, b, hb, h⟩ := h
      obtain ⟨h1, h2, h3, h4⟩ := two l r a b ha hb (fmod (a + b) p)
      refine key _ _ _ (by rw [nIn_snoc]; rfl) (by rw [nMul_snoc]; rfl) h ?_
      simp only [ImportRel, hg, at0_snoc, h3, h4]
      exact ⟨h1, h2, trivial⟩
    | addConst l c =>
      simp only [importGates, Option.bind_eq_some_iff] at h
      obtain ⟨a, ha, h⟩ := h
      obtain ⟨h1, -, h3, -⟩ := two l l a a ha ha (fmod (if sv then a else a + c) p)
      refine key _ _ _ (by rw [nIn_snoc]; rfl) (by rw [nMul_snoc]; rfl) h ?_
      simp only [ImportRel, hg, at0_snoc, h3]
      exact ⟨h1, trivial⟩
    | mulConst l c =>
      simp only [importGates, Option.bind_eq_some_iff] at h
      obtain ⟨a, ha, h⟩ := h
      obtain ⟨h1, -, h3, -⟩ := two l l a a ha ha (fmod (a * c) p)
      refine key _ _ _ (by rw [nIn_snoc]; rfl) (by rw [nMul_snoc]; rfl) h ?_
      simp only [ImportRel, hg, at0_snoc, h3]
      exact ⟨h1, trivial⟩

theorem importGates_all {p : ℕ} {sv : Bool} {gs : List Gate} {inps muls w : List ℤ}
    (h : importGates p sv gs inps muls [] = some w) :
    w.length = gs.length ∧ ∀ k < gs.length, ImportRel p sv gs inps muls w k := by
  have := importGates_rel p sv inps muls gs [] [] w rfl (by simpa [nIn, nMul] using h)
  simp only [List.nil_append] at this
  exact ⟨this.1, fun k hk => this.2.2.2 k (by simp) (by omega)⟩

/-- Parents come before the gate. -/
def Gate.parentsLt (k : ℕ) : Gate → Prop
  | .input => True
  | .add l r => l < k ∧ r < k
  | .mul l r => l < k ∧ r < k
  | .addConst l _ => l < k
  | .mulConst l _ => l < k

/-- Well-formed circuits: parents come first, `mul_gates` lists the multiplication gates in order, `result_zero` refers to
existing gates. -/
structure Circuit.WF (c : Circuit) : Prop where
  parents : ∀ (k : ℕ) (g : Gate), c.gates[k]? = some g → g.parentsLt k
  muls : c.mulGates = (List.range c.gates.length).filter fun k => ((c.gates[k]?).map Gate.isMul).getD false
  zeros : ∀ z ∈ c.resultZero, z < c.gates.length

theorem evalGates_total (p : ℕ) : ∀ (gs pre : List Gate) (inps w : List ℤ), w.length = pre.length →
    (∀ (k : ℕ) (g : Gate), (pre ++ gs)[k]? = some g → g.parentsLt k) → nIn gs ≤ inps.length → ∃ w', evalGates p gs inps w = some w' := by
  intro gs
  induction gs with
  | nil => intro pre inps w _ _ _; exact ⟨w, rfl⟩
  | cons g gs ih =>
    intro pre inps w hl hp hi
    have hg := hp pre.length g (by simp)
    have hp' : ∀ (k : ℕ) (g' : Gate), ((pre ++ [g]) ++ gs)[k]? = some g' → g'.parentsLt k := by
      intro k g' h; apply hp k g'; simpa using h
    have nx : ∀ x, (w ++ [x]).length = (pre ++ [g]).length := fun x => by simp [hl]
    rw [← hl] at hg
    cases g with
    | input =>
      cases inps with
      | nil => simp [nIn, Gate.isInput] at hi
      | cons x inps =>
        exact ih _ inps (w ++ [x]) (nx x) hp' (by simp [nIn, Gate.isInput, List.countP_cons] at hi ⊢; omega)
    | add l r =>
      obtain ⟨w', h⟩ := ih _ inps (w ++ [fmod (at0 w l + at0 w r) p]) (nx _) hp' (by simpa [nIn, Gate.isInput] using hi)
      exact ⟨w', by simp only [evalGates, at0_get hg.1, at0_get hg.2, Option.bind_some]; exact h⟩
    | mul l r =>
      obtain ⟨w', h⟩ := ih _ inps (w ++ [fmod (at0 w l * at0 w r) p]) (nx _) hp' (by simpa [nIn, Gate.isInput] using hi)
      exact ⟨w', by simp only [evalGates, at0_get hg.1, at0_get hg.2, Option.bind_some]; exact h⟩
    | addConst l c =>
      obtain ⟨w', h⟩ := ih _ inps (w ++ [fmod (at0 w l + c) p]) (nx _) hp' (by simpa [nIn, Gate.isInput] using hi)
      exact ⟨w', by simp only [evalGates, at0_get hg, Option.bind_some]; exact h⟩
    | mulConst l c =>
      obtain ⟨w', h⟩ := ih _ inps (w ++ [fmod (at0 w l * c) p]) (nx _) hp' (by simpa [nIn, Gate.isInput] using hi)
      exact ⟨w', by simp only [evalGates, at0_get hg, Option.bind_some]; exact h⟩

theorem importGates_total (p : ℕ) (sv : Bool) : ∀ (gs pre : List Gate) (inps muls w : List ℤ), w.length = pre.length →
    (∀ (k : ℕ) (g : Gate), (pre ++ gs)[k]? = some g → g.parentsLt k) → nIn gs ≤ inps.length → nMul gs ≤ muls.length →
    ∃ w', importGates p sv gs inps muls w = some w' := by
  intro gs
  induction gs with
  | nil => intro pre inps muls w _ _ _ _; exact ⟨w, rfl⟩
  | cons g gs ih =>
    intro pre inps muls w hl hp hi hm
    have hg := hp pre.length g (by simp)
    have hp' : ∀ (k : ℕ) (g' : Gate), ((pre ++ [g]) ++ gs)[k]? = some g' → g'.parentsLt k := by
      intro k g' h; apply hp k g'; simpa using h
    have nx : ∀ x, (w ++ [x]).length = (pre ++ [g]).length := fun x => by simp [hl]
    rw [← hl] at hg
    cases g with
    | input =>
      cases inps with
      | nil => simp [nIn, Gate.isInput] at hi
      | cons x inps =>
        exact ih _ inps muls (w ++ [x]) (nx x) hp' (by simp [nIn, Gate.isInput, List.countP_cons] at hi ⊢; omega)
          (by simpa [nMul, Gate.isMul] using hm)
    | mul l r =>
      cases muls with
      | nil => simp [nMul, Gate.isMul] at hm
      | cons x muls =>
        exact ih _ inps muls (w ++ [x]) (nx x) hp' (by simpa [nIn, Gate.isInput] using hi)
          (by simp [nMul, Gate.isMul, List.countP_cons] at hm ⊢; omega)
    | add l r =>
      obtain ⟨w', h⟩ := ih _ inps muls (w ++ [fmod (at0 w l + at0 w r) p]) (nx _) hp' (by simpa [nIn, Gate.isInput] using hi)
        (by simpa [nMul, Gate.isMul] using hm)
      exact ⟨w', by simp only [importGates, at0_get hg.1, at0_get hg.2, Option.bind_some]; exact h⟩
    | addConst l c =>
      obtain ⟨w', h⟩ := ih _ inps muls (w ++ [fmod (if sv then at0 w l else at0 w l + c) p]) (nx _) hp'
        (by simpa [nIn, Gate.isInput] using hi) (by simpa [nMul, Gate.isMul] using hm)
      exact ⟨w', by simp only [importGates, at0_get hg, Option.bind_some]; exact h⟩
    | mulConst l c =>
      obtain ⟨w', h⟩ := ih _ inps muls (w ++ [fmod (at0 w l * c) p]) (nx _) hp' (by simpa [nIn, Gate.isInput] using hi)
        (by simpa [nMul, Gate.isMul] using hm)
      exact ⟨w', by simp only [importGates, at0_get hg, Option.bind_some]; exact h⟩

theorem wiresAt_spec {w : List ℤ} : ∀ {is : List ℕ}, (∀ i ∈ is, i < w.length) → wiresAt w is = some (is.map (at0 w))
  | [], _ => rfl
  | i :: is, h => by
    simp only [wiresAt, at0_get (h i (by simp)), Option.bind_some, wiresAt_spec (is := is) fun j hj => h j (by simp [hj])]
    rfl

/-! ### Field level -/

/-- Linear relations of the wires over the field, multiplication gates left open. -/
def LinRel {F : Type*} [CommRing F] (gs : List Gate) (inp : ℕ → F) (w : ℕ → F) (k : ℕ) : Prop :=
  match gs[k]? with
  | none => True
  | some .input => w k = inp (nIn (gs.take k))
  | some (.add l r) => w k = w l + w r
  | some (.mul _ _) => True
  | some (.addConst l c) => w k = w l + (c : F)
  | some (.mulConst l c) => w k = w l * (c : F)

/-- Multiplication gate `k` is right. -/
def MulRel {F : Type*} [CommRing F] (gs : List Gate) (w : ℕ → F) (k : ℕ) : Prop :=
  ∀ l r, gs[k]? = some (.mul l r) → w k = w l * w r

/-- Wires are determined by the inputs and by the outputs of the multiplication gates. -/
theorem lin_unique {F : Type*} [CommRing F] {gs : List Gate} (hp : ∀ (k : ℕ) (g : Gate), gs[k]? = some g → g.parentsLt k)
    {inp inp' w v : ℕ → F} (hi : ∀ i < nIn gs, inp i = inp' i) (hw : ∀ k < gs.length, LinRel gs inp w k)
    (hv : ∀ k < gs.length, LinRel gs inp' v k)
    (hm : ∀ k l r, gs[k]? = some (.mul l r) → (∀ i < k, w i = v i) → w k = v k) : ∀ k < gs.length, w k = v k := by
  intro k
  induction k using Nat.strong_induction_on with
  | _ k ih =>
    intro hk
    have ih' : ∀ i < k, w i = v i := fun i hi => ih i hi (by omega)
    have h1 := hw k hk
    have h2 := hv k hk
    have hpk := hp k
    simp only [LinRel, List.getElem?_eq_getElem hk] at h1 h2 hpk
    generalize hg : gs[k] = g at h1 h2 hpk
    have hpk := hpk g rfl
    cases g with
    | input =>
      simp only at h1 h2
      rw [h1, h2]
      apply hi
      rw [nIn, nIn, ← List.take_append_drop k gs, List.countP_append, List.take_append_drop]
      have : List.drop k gs = gs[k] :: List.drop (k + 1) gs := List.drop_eq_getElem_cons hk
      rw [this, hg]
      simp [List.countP_cons, Gate.isInput]
    | add l r => simp only at h1 h2; rw [h1, h2, ih' _ hpk.1, ih' _ hpk.2]
    | mul l r => exact hm k l r (by rw [List.getElem?_eq_getElem hk, hg]) ih'
    | addConst l c => simp only at h1 h2; rw [h1, h2, ih' _ hpk]
    | mulConst l c => simp only at h1 h2; rw [h1, h2, ih' _ hpk]

/-- Field value of a wire. -/
def wireF (p : ℕ) (w : List ℤ) (i : ℕ) : ZMod p := (at0 w i : ZMod p)

theorem eval_lin {p : ℕ} {gs : List Gate} {inps w : List ℤ} {k : ℕ} (h : EvalRel p gs inps w k) :
    LinRel gs (wireF p inps) (wireF p w) k ∧ MulRel gs (wireF p w) k := by
  unfold EvalRel at h
  unfold LinRel MulRel
  cases hg : gs[k]? with
  | none => simp
  | some g =>
    simp only [hg] at h
    cases g with
    | input =>
      refine ⟨?_, by simp⟩
      have := (getElem?_at0 h).2
      simp only [wireF, this]
    | add l r => exact ⟨by simp only [wireF, h.2.2]; push_cast [fmod_cast]; rfl, by simp⟩
    | mul l r =>
      refine ⟨trivial, fun l' r' e => ?_⟩
      simp only [Option.some.injEq, Gate.mul.injEq] at e
      obtain ⟨rfl, rfl⟩ := e
      simp only [wireF, h.2.2]; push_cast [fmod_cast]; rfl
    | addConst l c => exact ⟨by simp only [wireF, h.2]; push_cast [fmod_cast]; rfl, by simp⟩
    | mulConst l c => exact ⟨by simp only [wireF, h.2]; push_cast [fmod_cast]; rfl, by simp⟩

theorem import_lin {p : ℕ} {gs : List Gate} {i0 i1 m0 m1 w0 w1 : List ℤ} {k : ℕ}
    (h0 : ImportRel p false gs i0 m0 w0 k) (h1 : ImportRel p true gs i1 m1 w1 k) :
    LinRel gs (fun i => wireF p i0 i + wireF p i1 i) (fun i => wireF p w0 i + wireF p w1 i) k ∧
    (∀ l r, gs[k]? = some (.mul l r) →
      at0 w0 k = at0 m0 (nMul (gs.take k)) ∧ at0 w1 k = at0 m1 (nMul (gs.take k))) := by
  unfold ImportRel at h0 h1
  unfold LinRel
  cases hg : gs[k]? with
  | none => simp
  | some g =>
    simp only [hg] at h0 h1
    cases g with
    | input =>
      refine ⟨?_, by simp⟩
      have e0 := (getElem?_at0 h0).2
      have e1 := (getElem?_at0 h1).2
      simp only [wireF, e0, e1]
    | add l r =>
      refine ⟨?_, by simp⟩
      simp only [wireF, h0.2.2, h1.2.2]; push_cast [fmod_cast]; ring
    | mul l r =>
      exact ⟨trivial, fun _ _ _ => ⟨(getElem?_at0 h0).2.symm, (getElem?_at0 h1).2.symm⟩⟩
    | addConst l c =>
      refine ⟨?_, by simp⟩
      simp only [wireF, h0.2, h1.2, if_true, Bool.false_eq_true, if_false]; push_cast [fmod_cast]; ring
    | mulConst l c =>
      refine ⟨?_, by simp⟩
      simp only [wireF, h0.2, h1.2]; push_cast [fmod_cast]; ring

/-! ### `mul_gates` -/

theorem Circuit.WF.mul_getElem {c : Circuit} (h : c.WF) {k : ℕ} (hk : k ∈ c.mulGates) :
    ∃ l r, c.gates[k]? = some (.mul l r) ∧ l < k ∧ r < k ∧ k < c.gates.length := by
  rw [h.muls, List.mem_filter, List.mem_range] at hk
  obtain ⟨h1, h2⟩ := hk
  rw [List.getElem?_eq_getElem h1] at h2
  have hp := h.parents k _ (List.getElem?_eq_getElem h1)
  generalize hg : c.gates[k] = g at h2 hp
  cases g <;> simp [Gate.isMul] at h2
  rename_i l r
  exact ⟨l, r, by rw [List.getElem?_eq_getElem h1, hg], hp.1, hp.2, h1⟩

/-- Position of a multiplication gate within `mul_gates`. -/
theorem filter_range_idx (f : ℕ → Bool) (n k : ℕ) (hk : k < n) (hf : f k = true) :
    ((List.range n).filter f)[((List.range k).filter f).length]? = some k := by
  have : List.range n = List.range k ++ List.range' k (n - k) := by
    rw [List.range_eq_range', List.range_eq_range']
    have := List.range'_append_1 (s := 0) (m := k) (n := n - k)
    rw [Nat.zero_add] at this
    rw [this]; congr 1; omega
  rw [this, List.filter_append, List.getElem?_append_right (le_refl _)]
  have h2 : n - k = (n - k - 1) + 1 := by omega
  rw [h2, List.range'_succ]
  simp [hf]

theorem nMul_take (gs : List Gate) (k : ℕ) (hk : k ≤ gs.length) :
    nMul (gs.take k) = ((List.range k).filter fun k => ((gs[k]?).map Gate.isMul).getD false).length := by
  induction k with
  | zero => simp [nMul]
  | succ k ih =>
    have hk' : k < gs.length := by omega
    rw [List.take_add_one, List.getElem?_eq_getElem hk', List.range_succ, List.filter_append, List.length_append,
      ← ih (by omega)]
    rw [Option.toList_some, nMul_snoc]
    congr 1
    simp only [List.filter_cons, List.getElem?_eq_getElem hk', Option.map_some, Option.getD_some, List.filter_nil]
    split <;> rfl

theorem Circuit.WF.mul_idx {c : Circuit} (h : c.WF) {k l r : ℕ} (hg : c.gates[k]? = some (.mul l r)) :
    c.mulGates[nMul (c.gates.take k)]? = some k := by
  have hk := (List.getElem?_eq_some_iff.mp hg).1
  rw [h.muls, nMul_take _ _ hk.le]
  exact filter_range_idx _ _ _ hk (by simp [hg, Gate.isMul])

theorem Circuit.WF.nMul_eq {c : Circuit} (h : c.WF) : nMul c.gates = c.mulGates.length := by
  have := nMul_take c.gates c.gates.length le_rfl
  rw [List.take_length] at this
  rw [this, h.muls]

/-! ### Construction preserves well-formedness -/

theorem Circuit.WF.addGate {c : Circuit} (h : c.WF) {g : Gate} (hg : g.parentsLt c.gates.length) :
    (c.addGate g).WF ∧ (c.addGate g).gates = c.gates ++ [g] := by
  have hgates : (c.addGate g).gates = c.gates ++ [g] := by cases g <;> rfl
  have hz : (c.addGate g).resultZero = c.resultZero := by cases g <;> rfl
  refine ⟨⟨?_, ?_, ?_⟩, hgates⟩
  · intro k g' hk
    rw [hgates] at hk
    rcases Nat.lt_trichotomy k c.gates.length with hl | hl | hl
    · rw [List.getElem?_append_left hl] at hk
      exact h.parents k g' hk
    · subst hl; simp at hk; subst hk; exact hg
    · rw [List.getElem?_eq_none (by simp; omega)] at hk; cases hk
  · have hf : (List.range c.gates.length).filter (fun k => (((c.gates ++ [g])[k]?).map Gate.isMul).getD false) =
        c.mulGates := by
      rw [h.muls]
      apply List.filter_congr
      intro k hk
      rw [List.getElem?_append_left (List.mem_range.mp hk)]
    rw [hgates, List.length_append, List.length_singleton, List.range_succ, List.filter_append, hf]
    cases g <;> simp [Circuit.addGate, Gate.isMul]
  · intro z hz'
    rw [hz] at hz'
    rw [hgates]
    have := h.zeros z hz'
    simp; omega

theorem Circuit.new_spec : ∀ n, (Circuit.new n).WF ∧ (Circuit.new n).gates = List.replicate n .input ∧
    (Circuit.new n).resultZero = [] ∧ (Circuit.new n).mulGates = []
  | 0 => ⟨⟨by simp [Circuit.new], by simp [Circuit.new], by simp [Circuit.new]⟩, rfl, rfl, rfl⟩
  | n + 1 => by
    obtain ⟨h1, h2, h3, h4⟩ := Circuit.new_spec n
    obtain ⟨h5, h6⟩ := h1.addGate (g := .input) trivial
    exact ⟨h5, by rw [Circuit.new, h6, h2, List.replicate_succ'], h3, h4⟩

/-- The circuit obtained by adding one check. -/
theorem Circuit.WF.addCheck {p : ℕ} {c : Circuit} (h : c.WF) {i j k : ℕ} (hi : i < c.gates.length)
    (hj : j < c.gates.length) (hk : k < c.gates.length) :
    ∃ c', c.addCheckMulEqual p i j k = some c' ∧ c'.WF ∧
      c'.gates = c.gates ++ [.mul i j, mulByNegOne p k, .add c.gates.length (c.gates.length + 1)] ∧
      c'.resultZero = c.resultZero ++ [c.gates.length + 2] ∧ c'.mulGates = c.mulGates ++ [c.gates.length] := by
  obtain ⟨w1, g1⟩ := h.addGate (g := .mul i j) ⟨hi, hj⟩
  obtain ⟨w2, g2⟩ := w1.addGate (g := mulByNegOne p k) (by
    show k < _; rw [g1]; simp; omega)
  obtain ⟨w3, g3⟩ := w2.addGate (g := .add c.gates.length (c.gates.length + 1)) (by
    show _ < _ ∧ _ < _; rw [g2, g1]; simp)
  refine ⟨_, if_pos ⟨hi, hj, hk⟩, ⟨w3.parents, w3.muls, ?_⟩, ?_, rfl, rfl⟩
  · intro z hz
    change z ∈ c.resultZero ++ [c.gates.length + 2] at hz
    change z < (((c.addGate _).addGate _).addGate _).gates.length
    rw [g3, g2, g1]
    simp only [List.mem_append, List.mem_singleton] at hz
    rcases hz with hz | hz
    · have := h.zeros z hz; simp; omega
    · subst hz; simp
  · show (((c.addGate _).addGate _).addGate _).gates = _
    rw [g3, g2, g1]; simp

end Verif

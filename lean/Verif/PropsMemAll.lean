import Verif.LemmasMemAll
import Verif.PropsMem

/-!
# C79: sessions with every operation

The sessions of `PropsMem` have no VAR, STDDEV and LINREG in them. Here the queries of a session are any, in any order and number.
-/

namespace Verif

/-- What a query leaves behind at server 1, in bytes. -/
def AnyJob.left1 (c : StoreCfg) : AnyJob → ℕ
  | .plain (.freq total _ _ _) => total * 2 ^ c.nbits
  | .plain _ => 0
  | .var subs _ _ => 24 * (usable subs).length
  | .lin degree _ subs _ _ _ =>
    (subs.length - (usable subs).length) * (8 * (2 * linXs degree + linQuad degree)) + (usable subs).length * (8 + 8 * linCols degree)

/-- What a query other than FREQ leaves behind at server 0. -/
def AnyJob.left0 : AnyJob → ℕ
  | .plain _ => 0
  | .var subs _ ks => 24 * ks.length + ((usable subs).filter fun k => k ∉ ks).length * 112
  | .lin degree N subs _ ks refused =>
    (subs.length - (usable subs).length) * (8 * (2 * linXs degree + linQuad degree)) + ks.length * (8 + 8 * linCols degree) +
      ((usable subs).filter fun k => k ∉ ks).length * (8 * (2 * linXs degree + linQuad degree) + (88 + 8 * (linMuls degree + N))) +
      if refused then 8 * (degree + linQuad degree) + 8 * degree else 0

def AnyJob.NoFreq : AnyJob → Prop
  | .plain (.freq ..) => False
  | _ => True

theorem anyLoss_one (c : StoreCfg) (js : List AnyJob) (s : ℕ) : anyLoss c true js s = (js.map (AnyJob.left1 c)).sum := by
  induction js generalizing s with
  | nil => rfl
  | cons j js ih =>
    rw [anyLoss, ih, updateLoss_one, List.map_cons, List.sum_cons, zero_add]
    congr 1
    cases j with
    | plain j => cases j <;> simp [AnyJob.loss, Job.loss, AnyJob.left1, checkLoss_one]
    | var => rfl
    | lin => rfl

theorem anyLoss_zero (c : StoreCfg) (js : List AnyJob) (hf : ∀ j ∈ js, j.NoFreq) (s : ℕ) (hs : ¬ Low c s) : anyLoss c false js s = (js.map AnyJob.left0).sum := by
  induction js with
  | nil => rfl
  | cons j js ih =>
    have h1 : updateLevel c s = s := by simp [updateLevel, hs]
    have h2 : updateLoss c false s = 0 := by simp [updateLoss, hs]
    have h3 : j.loss c false s = j.left0 ∧ j.level c s = s := by
      have := hf j (by simp)
      cases j with
      | plain j => cases j <;> simp_all [AnyJob.loss, AnyJob.level, Job.loss, Job.level, AnyJob.left0, AnyJob.NoFreq]
      | var => exact ⟨rfl, rfl⟩
      | lin => exact ⟨rfl, rfl⟩
    rw [anyLoss, h1, h2, h3.1, h3.2, ih fun j hj => hf j (by simp [hj]), List.map_cons, List.sum_cons, zero_add]

/-- Server 1, any session: nothing is released twice or used after its release, and the bytes left behind are the sum of what the queries leave behind, whatever the state of the store.
With LINREG, for an allocator that does not tell `delete` from `delete[]`. -/
theorem C79_any1_partial (shape : ℕ → List (Way × ℕ)) (c : StoreCfg) (js : List AnyJob) (k : Keep) (R : Multiset Block) (h : Heap) (hh : h.Holds k R)
    (hj : ∀ j ∈ js, j.Fits c true h.stack) :
    LeavesBehind (anyTurnsMem false shape c true js k) h R (js.map (AnyJob.left1 c)).sum ∧
      ((∀ j ∈ js, j.NoLin) → LeavesBehind (anyTurnsMem true shape c true js k) h R (js.map (AnyJob.left1 c)).sum) := by
  have := leaves_of_tri hh (tri_anyTurns shape c true js k hj R)
  rw [anyLoss_one] at this
  exact ⟨this, fun hl => by rw [anyTurns_strict shape c true js hl]; exact this⟩

/-- Server 0, any session without FREQ, when the store needs no refill. -/
theorem C79_any0_partial (shape : ℕ → List (Way × ℕ)) (c : StoreCfg) (js : List AnyJob) (hf : ∀ j ∈ js, j.NoFreq) (k : Keep) (R : Multiset Block) (h : Heap)
    (hh : h.Holds k R) (hs : c.batch * c.nbits / 2 ≤ k.store.length) (hj : ∀ j ∈ js, j.Fits c false h.stack) :
    LeavesBehind (anyTurnsMem false shape c false js k) h R (js.map AnyJob.left0).sum ∧
      ((∀ j ∈ js, j.NoLin) → LeavesBehind (anyTurnsMem true shape c false js k) h R (js.map AnyJob.left0).sum) := by
  have := leaves_of_tri hh (tri_anyTurns shape c false js k hj R)
  rw [anyLoss_zero c js hf _ (Nat.not_lt.2 hs)] at this
  exact ⟨this, fun hl => by rw [anyTurns_strict shape c false js hl]; exact this⟩

/-- Both servers, any session with FREQ and refills: it ends without undefined behaviour, and leaves behind what `anyLoss` says for the level of the store. -/
theorem C79_any_partial (shape : ℕ → List (Way × ℕ)) (c : StoreCfg) (sv : Bool) (js : List AnyJob) (k : Keep) (R : Multiset Block) (h : Heap) (hh : h.Holds k R)
    (hj : ∀ j ∈ js, j.Fits c sv h.stack) : LeavesBehind (anyTurnsMem false shape c sv js k) h R (anyLoss c sv js k.store.length) :=
  leaves_of_tri hh (tri_anyTurns shape c sv js k hj R)

/-- As C++ has it, a session is the end of the server at its first LINREG query with a row, whatever queries came before. -/
theorem C79_false_linreg_session (shape : ℕ → List (Way × ℕ)) (c : StoreCfg) (sv : Bool) (js rest : List AnyJob) (degree N : ℕ) (subs : List (Bytes × Bool))
    (ord : Map LinEntry → Map LinEntry) (ks : List Bytes) (refused : Bool) (k : Keep) (R : Multiset Block) (h : Heap) (hh : h.Holds k R)
    (hl : ∀ j ∈ js, j.NoLin) (hj : ∀ j ∈ AnyJob.lin degree N subs ord ks refused :: js, j.Fits c sv h.stack) :
    anyTurnsMem true shape c sv (js ++ .lin degree N subs ord ks refused :: rest) k h = none := by
  have hlin : ∀ (k : Keep) (R : Multiset Block), Bad h.stack (k.owned + R) (anyTurnsMem true shape c sv (.lin degree N subs ord ks refused :: rest) k) := by
    intro k R
    have hf := hj _ (List.mem_cons_self)
    refine Bad.first (Bad.bind (tri_maybeUpdate c sv k) ?_)
    rintro k1 _ ⟨-, L, -, rfl⟩
    cases sv with
    | true => exact bad_lin1 shape c.nbits degree N k1 hf.1 hf.2.1 hf.2.2
    | false => exact bad_lin0 shape c.nbits degree N refused k1 hf.1 hf.2.2
  have : ∀ (js : List AnyJob) (_ : ∀ j ∈ js, j.NoLin) (_ : ∀ j ∈ js, j.Fits c sv h.stack) (k : Keep) (R : Multiset Block),
      Bad h.stack (k.owned + R) (anyTurnsMem true shape c sv (js ++ .lin degree N subs ord ks refused :: rest) k) := by
    intro js
    induction js with
    | nil => exact fun _ _ k R => hlin k R
    | cons j js ih =>
      intro h1 h2 k R
      rw [List.cons_append]
      unfold anyTurnsMem
      rw [anyTurn_strict shape c sv j (h1 j (by simp)) k]
      refine Bad.bind (tri_anyTurn shape c sv j k (h2 j (by simp))) ?_
      rintro k1 _ ⟨-, L, -, rfl⟩
      exact ih (fun j hj => h1 j (by simp [hj])) (fun j hj => h2 j (by simp [hj])) k1 _
  exact this js hl (fun j hm => hj j (by simp [hm])) k R h hh.1 rfl hh.2

/-- A session with a SUM, a VAR and a LINREG query fits both servers and a stack of 64 bytes. -/
example (c : StoreCfg) (sv : Bool) : ∀ j ∈ [AnyJob.plain (.intSum 3), .var [([1#8], true)] id [[1#8]], .lin 3 8 [([1#8], true), ([2#8], false)] id [[1#8]] false],
    j.Fits c sv 64 := by
  intro j hj
  simp only [List.mem_cons, List.not_mem_nil, or_false] at hj
  have hu : usable [([1#8], true)] = [[1#8]] ∧ usable [([1#8], true), ([2#8], false)] = [[1#8]] := by decide +kernel
  rcases hj with rfl | rfl | rfl
  · trivial
  · cases sv
    · exact ⟨by simp, by simp⟩
    · exact ⟨fun m => .refl _, by rw [hu.1]; simp⟩
  · refine ⟨by decide, ?_⟩
    cases sv
    · exact ⟨by simp, by simp⟩
    · exact ⟨fun m => .refl _, by rw [hu.2]; simp⟩

/-- And these are the bytes it leaves behind at the two servers: 24 for VAR, and for LINREG 56 for the submission that does not count and 72 for the other. -/
example (c : StoreCfg) : ([AnyJob.plain (.intSum 3), .var [([1#8], true)] id [[1#8]], .lin 3 8 [([1#8], true), ([2#8], false)] id [[1#8]] false].map (AnyJob.left1 c)).sum
    = 24 + (56 + 72) ∧
    ([AnyJob.plain (.intSum 3), .var [([1#8], true)] id [[1#8]], .lin 3 8 [([1#8], true), ([2#8], false)] id [[1#8]] false].map AnyJob.left0).sum = 24 + (56 + 72) := by
  have hu : usable [([1#8], true)] = [[1#8]] ∧ usable [([1#8], true), ([2#8], false)] = [[1#8]] := by decide +kernel
  constructor
  · simp [AnyJob.left1, hu, linXs, linQuad, linCols]
  · simp [AnyJob.left0, hu, linXs, linQuad, linCols]

end Verif

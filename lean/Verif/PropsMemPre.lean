import Verif.LemmasMemPre2

/-!
# C81: what a server keeps for checking packets does not grow

What holds: whatever the sequence of batches and renewals of the check point, nothing is used or released that is not in use, and the bytes held are given by the
circuit sizes seen so far, provided that no check point was a root of unity of twice such a size. What does not hold: when one was, `precomp_x_clear` forgets the
coefficients, so that renewing such a check point loses memory each time.
-/

namespace Verif

/-! ## Specification -/

/-- The circuit sizes a session checks. -/
def sizesOf : List PreStep → Finset ℕ
  | [] => ∅
  | .check N _ :: l => insert N (sizesOf l)
  | .fresh _ :: l => sizesOf l

/-- The size checked last. -/
def lastSize (N : ℕ) : List PreStep → ℕ
  | [] => N
  | .check N' _ :: l => lastSize N' l
  | .fresh _ :: l => lastSize N l

/-- The check points renewed in a session that starts with `x`, each with the sizes checked before its end. -/
def renewed (x : ℤ) (Ns : Finset ℕ) : List PreStep → List (ℤ × Finset ℕ)
  | [] => []
  | .check N _ :: l => renewed x (insert N Ns) l
  | .fresh y :: l => (x, Ns) :: renewed y Ns l

/-- The last check point. -/
def lastPoint (x : ℤ) : List PreStep → ℤ
  | [] => x
  | .check _ _ :: l => lastPoint x l
  | .fresh y :: l => lastPoint y l

/-- The bytes for interpolation at `2 ^ k` points: the object and three arrays, a tree of `2 ^ (k + 1) - 2` nodes besides the root, and its polynomials. -/
def nodeBytes (k : ℕ) : ℕ := 200 + 24 * 2 ^ k + 80 * (2 ^ k - 1) + 8 * ((k + 1) * 2 ^ k + (2 * 2 ^ k - 1))

/-- The bytes for checking circuits of size `2 ^ k`. -/
def heldBytes (k : ℕ) : ℕ := 104 + 48 * 2 ^ k + nodeBytes k + nodeBytes (k + 1)

/-- Sizes are powers of two up to `2 ^ 18`, the stack has room for 16 bytes per point of the size, and check points are as drawn. -/
def PreStep.Good (S : ℕ) : PreStep → Prop
  | .check N _ => (∃ j, j ≤ 18 ∧ N = 2 ^ j) ∧ 16 * N ≤ S
  | .fresh x => Canon x intModulus

/-! ## Sessions -/

variable {S : ℕ} {R : Multiset Block}

theorem batchBytes_pow (k : ℕ) : batchBytes (2 ^ k) = nodeBytes k := by
  rw [batchBytes, treeBytes_pow, nodeBytes]
  omega

theorem sizes_steps (l : List PreStep) (Ns : Finset ℕ) (N : ℕ) : sizesOf (.check N 0 :: l) ∪ Ns = sizesOf l ∪ insert N Ns := by
  simp only [sizesOf]
  ext a
  simp only [Finset.mem_union, Finset.mem_insert]
  tauto

theorem tri_preSteps {k : PreKeep} {Ns : Finset ℕ} (hk : k.Ok Ns) (l : List PreStep) (hl : ∀ s ∈ l, s.Good S) :
    Tri S (k.owned + R) (preStepsMem l k) fun k' R' => k'.Ok (sizesOf l ∪ Ns) ∧ k'.x = lastPoint k.x l ∧ k'.tables.num = lastSize k.tables.num l ∧
      ∃ L, bytesOf L = ((renewed k.x Ns l).map fun e => lostAll e.2 e.1).sum ∧ (∀ b ∈ L, 0 < b.bytes) ∧ R' = k'.owned + (L + R) := by
  induction l generalizing k Ns R with
  | nil => exact Tri.pure ⟨by simpa [sizesOf] using hk, rfl, rfl, 0, by simp [renewed, bytesOf_zero], by simp, by simp⟩
  | cons s l ih =>
    have hg := hl s (by simp)
    have hl' : ∀ s ∈ l, s.Good S := fun s hs => hl s (by simp [hs])
    rw [preStepsMem]
    cases s with
    | check N n =>
      obtain ⟨⟨j, hj, rfl⟩, hS⟩ := hg
      refine Tri.bind (tri_checkStep hk hj hS) ?_
      rintro k1 _ ⟨h1, h2, h3, rfl⟩
      refine (ih h1 hl').conseq ?_
      rintro k2 _ ⟨g1, g2, g3, L, g4, g5, rfl⟩
      refine ⟨?_, by rw [g2, h2]; rfl, by rw [g3, h3]; rfl, L, by rw [g4, h2]; rfl, g5, rfl⟩
      rw [← sizes_steps] at g1
      exact g1
    | fresh y =>
      refine Tri.bind (tri_freshStep hk hg) ?_
      rintro k1 _ ⟨h1, h2, h3, L1, h4, h5, rfl⟩
      refine (ih h1 hl').conseq ?_
      rintro k2 _ ⟨g1, g2, g3, L, g4, g5, rfl⟩
      refine ⟨g1, by rw [g2, h2]; rfl, by rw [g3, h3]; rfl, L1 + L, ?_, ?_, by abel⟩
      · rw [bytesOf_add, h4, g4, h2]
        rfl
      · intro b hb
        rcases Multiset.mem_add.1 hb with hb | hb
        · exact h5 b hb
        · exact g5 b hb

theorem start_ok {x : ℤ} (hx : Canon x intModulus) : (PreKeep.start x).Ok ∅ :=
  ⟨hx, List.nodup_nil, rfl, by simp [PreKeep.start], .inl rfl, by simp [PreKeep.start, RootTables.start, bytesOf_zero]⟩

theorem held_sum {l : List PreStep} (hl : ∀ s ∈ l, s.Good S) :
    ∑ N ∈ sizesOf l, (104 + 48 * N + batchBytes N + batchBytes (2 * N)) = ∑ N ∈ sizesOf l, heldBytes (Nat.log 2 N) := by
  have hm : ∀ l : List PreStep, (∀ s ∈ l, s.Good S) → ∀ N ∈ sizesOf l, ∃ j, N = 2 ^ j := by
    intro l
    induction l with
    | nil => simp [sizesOf]
    | cons s l ih =>
      intro hl N hN
      cases s with
      | check M n =>
        rcases Finset.mem_insert.1 hN with rfl | hN
        · obtain ⟨⟨j, -, e⟩, -⟩ := hl _ List.mem_cons_self
          exact ⟨j, e⟩
        · exact ih (fun s hs => hl s (by simp [hs])) N hN
      | fresh y => exact ih (fun s hs => hl s (by simp [hs])) N hN
  refine Finset.sum_congr rfl fun N hN => ?_
  obtain ⟨j, rfl⟩ := hm l hl N hN
  rw [Nat.log_pow (by norm_num), show 2 * 2 ^ j = 2 ^ (j + 1) by rw [pow_succ]; ring, batchBytes_pow, batchBytes_pow, heldBytes]

/-- Any session runs without undefined behaviour. What is held afterwards is given by the sizes seen; lost are, for each renewed check point and each size `N`
seen before, 16 bytes per `N`-th root of unity if the point is one of them, and 16 per `2N`-th root if it is one of those. -/
theorem C81_session_partial (x : ℤ) (hx : Canon x intModulus) (l : List PreStep) (h : Heap) (ok : h.Ok) (hl : ∀ s ∈ l, s.Good h.stack) :
    ∃ k h' L, preStepsMem l (.start x) h = some (k, h') ∧ h'.Ok ∧ h'.used = k.owned + (L + h.used) ∧
      bytesOf k.owned = 32 * lastSize 0 l + ∑ N ∈ sizesOf l, heldBytes (Nat.log 2 N) ∧
      bytesOf L = ((renewed x ∅ l).map fun e => ∑ N ∈ e.2, lostAt N e.1).sum ∧ ∀ b ∈ L, 0 < b.bytes := by
  obtain ⟨k, h', e, ok', -, g1, g2, g3, L, g4, g5, g6⟩ := tri_preSteps (R := h.used) (start_ok hx) l hl h ok rfl (by simp [PreKeep.start, PreKeep.owned, storeOwned])
  refine ⟨k, h', L, e, ok', g6, ?_, g4, g5⟩
  rw [owned_checkers g1, g3, Finset.union_empty, held_sum hl]
  rfl

/-- When no check point is a root of unity of twice a size in use, nothing is lost: what is held is given by the sizes seen, however long the session. -/
theorem C81_steady_partial (x : ℤ) (hx : Canon x intModulus) (l : List PreStep) (h : Heap) (ok : h.Ok) (hl : ∀ s ∈ l, s.Good h.stack)
    (hr : ∀ e ∈ renewed x ∅ l, ∀ N ∈ e.2, ((e.1 : ℤ) : ZMod intModulus) ^ (2 * N) ≠ 1) :
    ∃ k h', preStepsMem l (.start x) h = some (k, h') ∧ h'.Ok ∧ h'.used = k.owned + h.used ∧
      bytesOf k.owned = 32 * lastSize 0 l + ∑ N ∈ sizesOf l, heldBytes (Nat.log 2 N) := by
  obtain ⟨k, h', L, e, ok', g1, g2, g3, g4⟩ := C81_session_partial x hx l h ok hl
  have h0 : ((renewed x ∅ l).map fun e => ∑ N ∈ e.2, lostAt N e.1).sum = 0 := by
    refine List.sum_eq_zero fun v hv => ?_
    obtain ⟨e, he, rfl⟩ := List.mem_map.1 hv
    refine Finset.sum_eq_zero fun N hN => ?_
    have h2 := hr e he N hN
    have h1 : ((e.1 : ℤ) : ZMod intModulus) ^ N ≠ 1 := fun h1 => h2 (by rw [mul_comm, pow_mul, h1, one_pow])
    rw [lostAt, if_neg h1, if_neg h2, add_zero]
  have hL : L = 0 := by
    refine Multiset.eq_zero_of_forall_notMem fun b hb => ?_
    have := g4 b hb
    have hle : b.bytes ≤ bytesOf L := Multiset.le_sum_of_mem (Multiset.mem_map_of_mem _ hb)
    rw [g3, h0] at hle
    omega
  subst hL
  exact ⟨k, h', e, ok', by rw [g1, zero_add], g2⟩

/-- Releasing the store at the end gives back all checkers, apart from the coefficients of points that were roots. -/
theorem C81_end_partial (x : ℤ) (hx : Canon x intModulus) (l : List PreStep) (h : Heap) (ok : h.Ok) (hl : ∀ s ∈ l, s.Good h.stack) :
    ∃ k h' L, (preStepsMem l (.start x) >>= fun k => endMem k >>= fun _ => pure k) h = some (k, h') ∧ h'.Ok ∧ h'.used = ↑k.tabs + (L + h.used) ∧
      bytesOf ↑k.tabs = 32 * lastSize 0 l ∧
      bytesOf L = ((renewed x ∅ l).map fun e => ∑ N ∈ e.2, lostAt N e.1).sum + ∑ N ∈ sizesOf l, lostAt N (lastPoint x l) := by
  have := Tri.bind (tri_preSteps (R := h.used) (start_ok hx) l hl) (f := fun k => endMem k >>= fun _ => pure k)
    (Q := fun k R' => k.tables.num = lastSize 0 l ∧ bytesOf ↑k.tabs = 32 * k.tables.num ∧ ∃ L, R' = ↑k.tabs + (L + h.used) ∧
      bytesOf L = ((renewed x ∅ l).map fun e => ∑ N ∈ e.2, lostAt N e.1).sum + ∑ N ∈ sizesOf l, lostAt N (lastPoint x l)) ?_
  · obtain ⟨k, h', e, ok', -, g1, g2, L, g3, g4⟩ := this h ok rfl (by simp [PreKeep.start, PreKeep.owned, storeOwned])
    exact ⟨k, h', L, e, ok', g3, by rw [g2, g1], g4⟩
  · rintro k _ ⟨g1, g2, g3, L, g4, -, rfl⟩
    refine Tri.bind (tri_end g1) ?_
    rintro _ _ ⟨L', g5, -, rfl⟩
    refine Tri.pure ⟨g3, g1.tabBytes, L' + L, by abel, ?_⟩
    rw [bytesOf_add, g5, g4, Finset.union_empty, g2, add_comm]
    rfl

/-- The tables for a circuit without multiplications, if it were asked for at the start: `tree_init` would not end. -/
theorem C81_size_zero (x : ℤ) (n : ℕ) (h : Heap) (ok : h.Ok) : preStepsMem [.check 0 n] (.start x) h = none := by
  have : Bad h.stack h.used (preStepsMem [.check 0 n] (.start x)) := by
    simp only [preStepsMem, preStepMem, checkStepMem, loadRootsMem, PreKeep.start, RootTables.start, if_true, pure_bind, getCheckerMem, List.lookup_nil]
    refine Bad.first (Bad.first (Bad.first ?_))
    simp only [newCheckerMem, List.length_nil, lt_irrefl, mul_zero, or_self, if_false, List.take_nil, each, pure_bind]
    refine Bad.bind (Tri.alloc _ _) ?_
    rintro b _ ⟨-, -, rfl⟩
    exact Bad.first bad_batchPre
  exact this h ok rfl rfl

/-- The bytes lost are not bounded by the sizes seen: with check point 1, drawn `m + 1` times, the session loses `96 m` bytes although it checks one size only. -/
theorem C81_false (B : ℕ) : ∃ (x : ℤ) (l : List PreStep), Canon x intModulus ∧ sizesOf l = {2} ∧ ∀ h : Heap, h.Ok → 32 ≤ h.stack →
    ∃ k h' L, preStepsMem l (.start x) h = some (k, h') ∧ h'.used = k.owned + (L + h.used) ∧ B < bytesOf L := by
  have h1 : Canon 1 intModulus := canon_one (by decide)
  refine ⟨1, .check 2 1 :: List.replicate (B + 1) (.fresh 1), h1, ?_, fun h ok hS => ?_⟩
  · have : ∀ m, sizesOf (List.replicate m (.fresh 1)) = ∅ := by
      intro m
      induction m with
      | zero => rfl
      | succ m ih => rw [List.replicate_succ, sizesOf, ih]
    rw [sizesOf, this]
    rfl
  · have hg : ∀ s ∈ PreStep.check 2 1 :: List.replicate (B + 1) (PreStep.fresh 1), s.Good h.stack := by
      intro s hs
      rcases List.mem_cons.1 hs with rfl | hs
      · exact ⟨⟨1, by norm_num, rfl⟩, by omega⟩
      · rw [List.eq_of_mem_replicate hs]
        exact h1
    obtain ⟨k, h', L, e, -, g1, -, g3, -⟩ := C81_session_partial 1 h1 _ h ok hg
    refine ⟨k, h', L, e, g1, ?_⟩
    rw [g3]
    have : ∀ m, ((renewed 1 {2} (List.replicate m (.fresh 1))).map fun e => ∑ N ∈ e.2, lostAt N e.1).sum = 96 * m := by
      intro m
      induction m with
      | zero => rfl
      | succ m ih =>
        rw [List.replicate_succ, renewed, List.map_cons, List.sum_cons, ih]
        simp only [Finset.sum_singleton, lostAt, Int.cast_one, one_pow, if_true]
        ring
    have e2 : renewed 1 ∅ (.check 2 1 :: List.replicate (B + 1) (.fresh 1)) = renewed 1 {2} (List.replicate (B + 1) (.fresh 1)) := rfl
    rw [e2, this]
    omega

/-- The hypotheses of `C81_steady_partial` hold for a session with two sizes and two renewals, on a heap with other blocks. -/
example : (∀ s ∈ [PreStep.check 2 3, .fresh 5, .check 4 1, .fresh 7, .check 2 2], s.Good 64) ∧
    (∀ e ∈ renewed 3 ∅ [PreStep.check 2 3, .fresh 5, .check 4 1, .fresh 7, .check 2 2], ∀ N ∈ e.2, ((e.1 : ℤ) : ZMod intModulus) ^ (2 * N) ≠ 1) ∧
    (⟨9, [⟨3, .arr, 5⟩], 64⟩ : Heap).Ok := by
  refine ⟨?_, ?_, by simp [Heap.Ok]⟩
  · intro s hs
    simp only [List.mem_cons, List.not_mem_nil, or_false] at hs
    rcases hs with rfl | rfl | rfl | rfl | rfl
    · exact ⟨⟨1, by norm_num, rfl⟩, by norm_num⟩
    · exact ⟨by norm_num, by decide⟩
    · exact ⟨⟨2, by norm_num, rfl⟩, by norm_num⟩
    · exact ⟨by norm_num, by decide⟩
    · exact ⟨⟨1, by norm_num, rfl⟩, by norm_num⟩
  · have key : ∀ (a : ℕ) (N : ℕ), 1 < a ^ (2 * N) → a ^ (2 * N) < intModulus → (((a : ℤ) : ℤ) : ZMod intModulus) ^ (2 * N) ≠ 1 := by
      intro a N h1 h2 h
      have h3 : ((a ^ (2 * N) : ℕ) : ZMod intModulus) = ((1 : ℕ) : ZMod intModulus) := by push_cast; simpa using h
      have := Nat.ModEq.eq_of_lt_of_lt ((ZMod.natCast_eq_natCast_iff _ _ _).1 h3) h2 (by decide)
      omega
    intro e he N hN
    simp only [renewed, List.mem_cons, List.not_mem_nil, or_false] at he
    rcases he with rfl | rfl
    · have : N = 2 := by simpa using hN
      subst this
      exact key 3 2 (by norm_num) (by decide)
    · have : N = 4 ∨ N = 2 := by simpa using hN
      rcases this with rfl | rfl
      · exact key 5 4 (by norm_num) (by decide)
      · exact key 5 2 (by norm_num) (by decide)

end Verif

import Verif.PropsVar
import Verif.PropsSolve

/-! # Lemmas for `linreg_op`: the flat layout, the circuit, the sums on the wire -/

namespace Verif

/-- The number of multiplication gates of the LINREG circuit. -/
def linMul (d : ℕ) : ℕ := d * (d - 1) / 2 + (d - 1)

theorem numFields_eq {d : ℕ} (hd : 1 ≤ d) : numFields d = d + numQuad d + (d - 1) := by
  unfold numFields numQuad; omega

theorem numFields_linMul {d : ℕ} (hd : 1 ≤ d) : numFields d = linMul d + d := by
  unfold numFields linMul
  have : (d - 1) * (d - 1 + 1) = d * (d - 1) := by rw [Nat.sub_add_cancel hd, mul_comm]
  rw [this]; omega

theorem Built.nIn {p n : ℕ} [NeZero p] {cs : List (ℕ × ℕ × ℕ)} {c : Circuit} (h : Built p n cs c) : nIn c.gates = n := by
  obtain ⟨w, -, -, h, -⟩ := h.eval (inps := List.replicate n 0) (by simp)
  exact h

theorem Built.zeros {p n : ℕ} {cs : List (ℕ × ℕ × ℕ)} {c : Circuit} (h : Built p n cs c) : c.resultZero.length = c.mulGates.length := by
  induction h with
  | nil =>
    obtain ⟨-, -, h3, h4⟩ := Circuit.new_spec n
    rw [h3, h4]
  | snoc hb hi hj hk hc ih =>
    obtain ⟨w, hn, -⟩ := hb.wf
    obtain ⟨c'', e, -, -, z', m'⟩ := w.addCheck (p := p) (lt_of_lt_of_le hi hn) (lt_of_lt_of_le hj hn) (lt_of_lt_of_le hk hn)
    rw [hc] at e; cases e
    rw [z', m', List.length_append, List.length_append, ih]; rfl

/-- The circuit of `CheckLinReg`. -/
theorem linCircuit {d : ℕ} (hd : 1 ≤ d) (hs : linMul d < 2 ^ 18) : ∃ c, checkLinReg intModulus d = some c ∧ CircOk c ∧
    c.mulGates.length = linMul d ∧ c.resultZero.length = linMul d ∧ nIn c.gates = numFields d ∧
    ∀ inps : List ℤ, inps.length = numFields d → ∃ w b, c.eval intModulus inps = some (w, b) ∧
      (b = true ↔ ∃ xs y, xs.length = d - 1 ∧ residues intModulus inps = regressionRow xs y) := by
  have hf : numFields d < 2 ^ 32 := by
    rw [numFields_linMul hd]
    have : d - 1 ≤ linMul d := by unfold linMul; omega
    omega
  obtain ⟨c, e, hm, hev⟩ := C26_checkLinReg hd hf
  obtain ⟨c', e', hb⟩ := checkLinReg_built (p := intModulus) hd hf
  rw [e] at e'; cases e'
  have hm : c.mulGates.length = linMul d := hm
  exact ⟨c, e, ⟨hb.wf.1, by rw [hm]; exact hs⟩, hm, by rw [hb.zeros, hm], hb.nIn, hev⟩

/-! ## Flat rows -/

/-- A row of the sizes with which it is read. -/
structure LinRowOk (c : Circuit) (d : ℕ) (r : LinRow) : Prop where
  x : r.x.length = d - 1
  x2 : r.x2.length = numQuad d
  xy : r.xy.length = d - 1
  pk : PacketOk c r.packet

/-- The inverse of `LinRow.flat`. -/
def unflat (d : ℕ) (s : SnipRow) : LinRow :=
  ⟨s.vals.take (d - 1), s.vals.getD (d - 1) 0#64, (s.vals.drop d).take (numQuad d), s.vals.drop (d + numQuad d), s.packet⟩

theorem unflat_flat {c : Circuit} {d : ℕ} (hd : 1 ≤ d) {r : LinRow} (h : LinRowOk c d r) : unflat d r.flat = r := by
  obtain ⟨x, y, x2, xy, pk⟩ := r
  obtain ⟨h1, h2, h3, -⟩ := h
  simp only at h1 h2 h3
  have e : x ++ [y] ++ x2 ++ xy = x ++ (y :: (x2 ++ xy)) := by simp
  have l1 : (x ++ [y]).length = d := by simp; omega
  have l2 : (x ++ [y] ++ x2).length = d + numQuad d := by rw [List.length_append, l1, h2]
  simp only [unflat, LinRow.flat, LinRow.mk.injEq, and_true]
  refine ⟨?_, ?_, ?_, ?_⟩
  · rw [e, ← h1, List.take_left]
  · rw [e, ← h1, List.getD_append_right _ _ _ _ le_rfl, Nat.sub_self, List.getD_cons_zero]
  · rw [← h2, List.append_assoc, ← l1, List.drop_left, List.take_left]
  · rw [← l2, List.drop_left]

theorem flat_length {c : Circuit} {d : ℕ} (hd : 1 ≤ d) {r : LinRow} (h : LinRowOk c d r) : r.flat.vals.length = numFields d := by
  rw [numFields_eq hd]
  simp only [LinRow.flat, List.length_append, h.x, h.x2, h.xy, List.length_singleton]; omega

theorem firstOf_map {α β : Type} {ok : α → Bool} {ok' : β → Bool} (f : α → β) (subs : List (Bytes × α))
    (h : ∀ e ∈ subs, ok' (f e.2) = ok e.2) (k : Bytes) :
    firstOf ok' (subs.map fun e => (e.1, f e.2)) k = (firstOf ok subs k).map f := by
  unfold firstOf
  induction subs with
  | nil => rfl
  | cons e subs ih =>
    simp only [List.map_cons, List.find?_cons, h e (List.mem_cons_self ..)]
    rcases hb : (e.1 == k && ok e.2) with _ | _
    · exact ih fun e he => h e (List.mem_cons_of_mem _ he)
    · rfl

theorem lookup_map {α β : Type} (f : α → β) (m : Map α) (k : Bytes) :
    List.lookup k (m.map fun e => (e.1, f e.2)) = (List.lookup k m).map f := by
  induction m with
  | nil => rfl
  | cons e m ih =>
    obtain ⟨a, b⟩ := e
    simp only [List.map_cons, List.lookup_cons]
    rcases k == a with _ | _
    · exact ih
    · rfl

theorem admit_map {α β : Type} {ok : α → Bool} {ok' : β → Bool} (f : α → β) : ∀ (subs : List (Bytes × α)) (m : Map α),
    (∀ e ∈ subs, ok' (f e.2) = ok e.2) →
    (admit ok subs m).map (fun e => (e.1, f e.2)) = admit ok' (subs.map fun e => (e.1, f e.2)) (m.map fun e => (e.1, f e.2))
  | [], m, _ => rfl
  | (k, v) :: subs, m, h => by
    have hv : ok' (f v) = ok v := h (k, v) (List.mem_cons_self ..)
    have hm := fun e he => h e (List.mem_cons_of_mem _ he)
    rw [List.map_cons, admit, admit]
    simp only [lookup_map, Option.isSome_map, hv]
    split
    · exact admit_map f subs m hm
    · rw [admit_map f subs _ hm, List.map_append]; rfl

theorem bothKeys_map {α β : Type} {ok : α → Bool} {ok' : β → Bool} (f : α → β) (subs0 subs1 : List (Bytes × α))
    (h0 : ∀ e ∈ subs0, ok' (f e.2) = ok e.2) (h1 : ∀ e ∈ subs1, ok' (f e.2) = ok e.2) :
    bothKeys ok' (subs0.map fun e => (e.1, f e.2)) (subs1.map fun e => (e.1, f e.2)) = bothKeys ok subs0 subs1 := by
  unfold bothKeys
  rw [List.map_map]
  ext k
  simp only [Finset.mem_filter, firstOf_map f subs0 h0, firstOf_map f subs1 h1, Option.isSome_map]
  rfl

/-! ## The sums on the wire -/

theorem split_sums {d : ℕ} (hd : 1 ≤ d) {b : List ℤ} (hl : b.length = numFields d) : ∃ bx y bx2 bxy, b = bx ++ [y] ++ bx2 ++ bxy ∧
    bx.length = d - 1 ∧ bx2.length = numQuad d ∧ bxy.length = d - 1 := by
  rw [numFields_eq hd] at hl
  refine ⟨b.take (d - 1), b.getD (d - 1) 0, (b.drop d).take (numQuad d), b.drop (d + numQuad d), ?_, ?_, ?_, ?_⟩
  · have h1 : b.take (d - 1) ++ [b.getD (d - 1) 0] = b.take d := by
      have hlt : d - 1 < b.length := by omega
      conv_rhs => rw [show d = (d - 1) + 1 by omega, List.take_add_one, List.getElem?_eq_getElem hlt]
      rw [List.getD_eq_getElem?_getD, List.getElem?_eq_getElem hlt]; rfl
    rw [h1, ← List.take_add, List.take_append_drop]
  · rw [List.length_take]; omega
  · rw [List.length_take, List.length_drop]; omega
  · rw [List.length_drop]; omega

theorem reads_linSums {d : ℕ} {bx bx2 bxy : List ℤ} {y : ℤ} (l1 : bx.length = d - 1) (l2 : bx2.length = numQuad d) (l3 : bxy.length = d - 1)
    (hf : ∀ z ∈ bx ++ [y] ++ bx2 ++ bxy, Fits z) :
    Reads (rdLinSums d) ((bx ++ [y] ++ bx2 ++ bxy).flatMap fmpzBytes) (bx, y, bx2, bxy) := by
  simp only [List.mem_append, List.mem_singleton] at hf
  have e : (bx ++ [y] ++ bx2 ++ bxy).flatMap fmpzBytes =
      bx.flatMap fmpzBytes ++ (fmpzBytes y ++ (bx2.flatMap fmpzBytes ++ bxy.flatMap fmpzBytes)) := by simp
  rw [e, rdLinSums, ← l2]
  nth_rewrite 1 [← l1]
  rw [← l3]
  exact (reads_fmpz_rep bx fun z hz => hf z (by tauto)).bind ((reads_fmpz (hf y (by tauto))).bind
    ((reads_fmpz_rep bx2 fun z hz => hf z (by tauto)).bind (Reads.bindRet (f := fun xy => (bx, y, bx2, xy))
      (reads_fmpz_rep bxy fun z hz => hf z (by tauto)))))

theorem addOwn_eq {a b bs : List ℤ} {off : ℕ} {S : ℕ → ℕ} (hS : ∀ j < bs.length, fmod (b.getD (off + j) 0 + a.getD (off + j) 0) intModulus = (S (off + j) : ℤ))
    (hb : ∀ j < bs.length, bs.getD j 0 = b.getD (off + j) 0) :
    addOwn a off bs = (List.range bs.length).map fun j => BitVec.ofNat 64 (S (off + j)) := by
  apply List.ext_getElem
  · simp [addOwn]
  · intro j h1 h2
    have hj : j < bs.length := by simpa [addOwn] using h1
    have := hb j hj
    rw [List.getD_eq_getElem?_getD, List.getElem?_eq_getElem hj, Option.getD_some] at this
    simp only [addOwn, List.getElem_mapIdx, List.getElem_map, List.getElem_range, this, hS j hj, BitVec.ofInt_natCast]

/-! ## `SolveLinReg` stays within its arrays -/

theorem fillFirst_total {x : List U64} : ∀ (n i : ℕ) (M : ℕ → ℕ → ℚ), i + n ≤ x.length → ∃ M', fillFirst x n i M = some M'
  | 0, _, M, _ => ⟨M, rfl⟩
  | n + 1, i, M, h => by
    rw [fillFirst, List.getElem?_eq_getElem (by omega), Option.bind_some]
    exact fillFirst_total n (i + 1) _ (by omega)

theorem fillInner_total {x : List U64} (i : ℕ) : ∀ (n j idx : ℕ) (M : ℕ → ℕ → ℚ), idx + n ≤ x.length →
    ∃ M', fillInner x i n j (M, idx) = some (M', idx + n)
  | 0, _, _, M, _ => ⟨M, rfl⟩
  | n + 1, j, idx, M, h => by
    rw [fillInner, List.getElem?_eq_getElem (by show idx < _; omega), Option.bind_some]
    obtain ⟨M', e⟩ := fillInner_total (x := x) i n (j + 1) (idx + 1) (setSym M i j (x[idx]).toNat) (by omega)
    exact ⟨M', by rw [e]; congr 2; omega⟩

theorem fillOuter_total {x : List U64} {d : ℕ} : ∀ (n i idx : ℕ) (M : ℕ → ℕ → ℚ), i + n = d → idx + n * (n + 1) / 2 ≤ x.length →
    ∃ st, fillOuter x d n i (M, idx) = some st
  | 0, _, idx, M, _, _ => ⟨(M, idx), rfl⟩
  | n + 1, i, idx, M, hi, h => by
    have e : (n + 1) * (n + 1 + 1) = n * (n + 1) + (n + 1) * 2 := by ring
    rw [e, Nat.add_mul_div_right _ _ (by norm_num)] at h
    obtain ⟨M', e⟩ := fillInner_total (x := x) i (n + 1) i idx M (by omega)
    rw [fillOuter, show d - i = n + 1 by omega, e, Option.bind_some]
    exact fillOuter_total n (i + 1) _ M' (by omega) (by omega)

theorem solve_total {d : ℕ} (hd : 1 ≤ d) {x y : List U64} (hx : d + numQuad d ≤ x.length) (hy : d ≤ y.length) :
    ∃ r, solveLinReg d x y = some r := by
  obtain ⟨M, e1⟩ := fillFirst_total (x := x) d 0 (fun _ _ => 0) (by omega)
  obtain ⟨st, e2⟩ := fillOuter_total (x := x) (d := d) (d - 1) 1 d M (by omega) hx
  unfold solveLinReg
  rw [e1, Option.bind_some, e2, Option.bind_some, if_neg (by omega)]
  exact ⟨_, rfl⟩

end Verif

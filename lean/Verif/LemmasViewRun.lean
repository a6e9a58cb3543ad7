import Verif.LemmasViewSnip

/-! # Two runs that differ in the submissions of honest clients -/

namespace Verif

/-! ### Arrivals -/

/-- What arrives at a server: submissions of honest clients, by index, and arbitrary others. -/
def fill {α : Type} {n : ℕ} (key : Fin n → Bytes) (A : List (Fin n ⊕ Bytes × α)) (f : Fin n → α) : List (Bytes × α) :=
  A.map (Sum.elim (fun i => (key i, f i)) id)

/-- Every honest client is heard and no one else uses a key of theirs. -/
structure Arrives {α : Type} {n : ℕ} (key : Fin n → Bytes) (A : List (Fin n ⊕ Bytes × α)) : Prop where
  inj : Function.Injective key
  all : ∀ i, Sum.inl i ∈ A
  others : ∀ e, Sum.inr e ∈ A → ∀ i, e.1 ≠ key i

variable {α : Type} {n : ℕ} {key : Fin n → Bytes}

theorem firstOf_cons {ok : α → Bool} (e : Bytes × α) (l : List (Bytes × α)) (k : Bytes) :
    firstOf ok (e :: l) k = if e.1 = k ∧ ok e.2 = true then some e.2 else firstOf ok l k := by
  unfold firstOf
  rw [List.find?_cons]
  by_cases h : e.1 = k ∧ ok e.2 = true
  · simp [h.1, h.2]
  · rw [if_neg h]
    have : (e.1 == k && ok e.2) = false := by
      rw [Bool.eq_false_iff]; intro h'; exact h (by simpa using h')
    simp [this]

theorem firstOf_honest {ok : α → Bool} {A : List (Fin n ⊕ Bytes × α)} (h : Arrives key A) {f : Fin n → α} (i : Fin n) (hf : ok (f i) = true) :
    firstOf ok (fill key A f) (key i) = some (f i) := by
  have h1 := h.all i
  have h2 := h.others
  have hi := h.inj
  clear h
  induction A with
  | nil => cases h1
  | cons a A ih =>
    rw [fill, List.map_cons, firstOf_cons]
    rcases a with j | e
    · by_cases hj : j = i
      · subst hj
        rw [if_pos ⟨rfl, hf⟩]; rfl
      · rw [if_neg (fun h => hj (hi h.1))]
        refine ih ?_ fun e he => h2 e (List.mem_cons_of_mem _ he)
        rcases List.mem_cons.1 h1 with h | h
        · cases h; exact absurd rfl hj
        · exact h
    · rw [if_neg (fun h => h2 e (List.mem_cons_self ..) i h.1)]
      refine ih ?_ fun e he => h2 e (List.mem_cons_of_mem _ he)
      rcases List.mem_cons.1 h1 with h | h
      · cases h
      · exact h

theorem firstOf_other {ok : α → Bool} (A : List (Fin n ⊕ Bytes × α)) (f f' : Fin n → α) {k : Bytes} (hk : ∀ i, key i ≠ k) :
    firstOf ok (fill key A f) k = firstOf ok (fill key A f') k := by
  induction A with
  | nil => rfl
  | cons a A ih =>
    rw [fill, List.map_cons, firstOf_cons, fill, List.map_cons, firstOf_cons]
    rcases a with j | e
    · rw [if_neg fun h => hk j h.1, if_neg fun h => hk j h.1]; exact ih
    · exact congrArg (fun z => if e.1 = k ∧ ok e.2 = true then some e.2 else z) ih

theorem admit_keys_fill {ok : α → Bool} (A : List (Fin n ⊕ Bytes × α)) {f f' : Fin n → α} (h : ∀ i, ok (f i) = ok (f' i)) (m m' : Map α)
    (hm : m.keys = m'.keys) : (admit ok (fill key A f) m).keys = (admit ok (fill key A f') m').keys := by
  induction A generalizing m m' with
  | nil => exact hm
  | cons a A ih =>
    have hc : ∀ k, (m.lookup k).isSome = (m'.lookup k).isSome := fun k => by
      rw [Bool.eq_iff_iff, lookup_isSome_iff, lookup_isSome_iff, hm]
    rcases a with j | e
    · simp only [fill, List.map_cons, Sum.elim_inl, admit]
      rw [hc (key j), h j]
      split
      · exact ih _ _ hm
      · exact ih _ _ (by simp only [Map.keys, List.map_append] at hm ⊢; rw [hm]; rfl)
    · simp only [fill, List.map_cons, Sum.elim_inr, id, admit]
      rw [hc e.1]
      split
      · exact ih _ _ hm
      · exact ih _ _ (by simp only [Map.keys, List.map_append] at hm ⊢; rw [hm])

/-! ### Rows -/

/-- The shares of a row at server 0 after conversion: a function of its own values and masks. -/
def mask0 (ws : List ℕ) (raw : ℕ → ℕ → U64) (vals : List U64) : List ℤ := (senderRow modW ws ⟨vals, true, raw⟩).2.map fun w => (w.toNat : ℤ)

/-- What is missing to the values. -/
def missing (inps i : List ℤ) : List ℤ := (List.range inps.length).map fun j => fmod (at0 inps j - at0 i j) intModulus

theorem senderCols_length2 (m : U64) (raw : ℕ → ℕ → U64) : ∀ (j : ℕ) (vs : List U64) (ws : List ℕ), vs.length = ws.length →
    (senderCols m raw j vs ws).2.length = ws.length
  | _, [], [], _ => rfl
  | _, [], _ :: _, h => by simp at h
  | _, _ :: _, [], h => by simp at h
  | j, v :: vs, w :: ws, h => by
    rw [senderCols, List.length_cons, List.length_cons, senderCols_length2 m raw (j + 1) vs ws (by simpa using h)]

theorem mask0_length {ws : List ℕ} (raw : ℕ → ℕ → U64) {vals : List U64} (h : vals.length = ws.length) : (mask0 ws raw vals).length = ws.length := by
  rw [mask0, List.length_map, senderRow, if_pos rfl]
  exact senderCols_length2 _ _ _ _ _ h

theorem pieces_flatten {β : Type} (L : List (List β)) (k : ℕ) (h : ∀ l ∈ L, l.length = k) : pieces k L.length L.flatten = L := by
  induction L with
  | nil => rfl
  | cons l L ih =>
    have h0 := h l (List.mem_cons_self ..)
    rw [List.length_cons, pieces, List.flatten_cons, List.take_left' h0, List.drop_left' h0, ih fun l hl => h l (List.mem_cons_of_mem _ hl)]

/-- Row `i` of server 0's shares. -/
theorem piece0 {ws : List ℕ} (raw : ℕ → ℕ → ℕ → U64) {R : List SnipRow} (h : ∀ r ∈ R, r.vals.length = ws.length) {i : ℕ} {r : SnipRow}
    (hi : R[i]? = some r) : (pieces ws.length R.length (conv0 ws raw R)).getD i [] = mask0 ws (raw i) r.vals := by
  have e : conv0 ws raw R = (R.zipIdx.map fun q => mask0 ws (raw q.2) q.1.vals).flatten := by
    simp only [conv0, otRows, List.map_flatten, List.map_map]; rfl
  have hl : (R.zipIdx.map fun q => mask0 ws (raw q.2) q.1.vals).length = R.length := by simp
  rw [e]
  conv_lhs => rw [← hl]
  rw [pieces_flatten]
  · rw [List.getD_eq_getElem?_getD, List.getElem?_map, List.getElem?_zipIdx, hi]
    simp
  · intro l hl
    obtain ⟨q, hq, rfl⟩ := List.mem_map.1 hl
    exact mask0_length _ (h _ (List.fst_mem_of_mem_zipIdx hq))

/-- A list of residues is determined by its sum with another. -/
theorem missing_eq {inps a b : List ℤ} (hl : b.length = inps.length) (hc : ∀ y ∈ b, Canon y intModulus)
    (h : ∀ j < inps.length, (at0 a j + at0 b j : ZMod intModulus) = at0 inps j) : b = missing inps a := by
  apply List.ext_getElem
  · simp [missing, hl]
  · intro j h1 h2
    simp only [missing, List.getElem_map, List.getElem_range]
    refine canon_eq_of_cast (hc _ (List.getElem_mem _)) (fmod_canon _) ?_
    have := h j (by omega)
    have e : at0 b j = b[j] := by simp [at0, List.getD_eq_getElem?_getD, h1]
    rw [fmod_cast, Int.cast_sub, ← this, e]
    ring

/-- An honest submission: the shares are those of values that satisfy the circuit, and the packets are those of the client. -/
structure HonestRow (c : Circuit) (ws : List ℕ) (t : RootTables) (inps : List ℤ) (r : SnipRand) (r0 r1 : SnipRow) : Prop where
  len : inps.length = ws.length
  val : ∀ j < ws.length, ((recVal ws r0 r1 j : ℕ) : ZMod intModulus) = at0 inps j
  eval : ∃ w, c.eval intModulus inps = some (w, true) ∧ sharePolynomials intModulus c w t r = some (r0.packet, r1.packet)
  rand : ValidRand intModulus c r

theorem HonestRow.run {c : Circuit} {ws : List ℕ} {t : RootTables} {x : ℤ} {inps : List ℤ} {r : SnipRand} {r0 r1 : SnipRow}
    (h : HonestRow c ws t inps r r0 r1) {pre : CheckerPre} (hpre : checkerPre intModulus t (npow2 c.mulGates.length) x = some pre)
    {cs i0 i1 : List ℤ} (hl0 : i0.length = ws.length) (hl1 : i1.length = ws.length)
    (hs : ∀ j < ws.length, (at0 i0 j + at0 i1 j : ZMod intModulus) = ((recVal ws r0 r1 j : ℕ) : ZMod intModulus)) {k0 k1 : Checker} {o0 o1 : ℤ}
    (hr : RowRun c pre cs r0.packet r1.packet i0 i1 k0 k1 o0 o1) :
    HonestRun c t x cs inps i0 i1 r r0.packet r1.packet k0 k1 o0 o1 := by
  obtain ⟨w, e1, e2⟩ := h.eval
  refine ⟨⟨w, pre, e1, e2, hpre, hr.init0, hr.init1⟩, ⟨by rw [hl0, h.len], by rw [hl1, h.len]⟩, ?_, h.rand, hr.out0, hr.out1⟩
  intro j hj
  rw [h.len] at hj
  rw [hs j hj, h.val j hj]

/-- An honest submission is accepted. -/
theorem HonestRun.accepted {c : Circuit} (wf : c.WF) {t : RootTables} {l : List ℕ} (hrc : RootCalls (npow2 c.mulGates.length :: l) t)
    {x : ℤ} (hx : Canon x intModulus) {cs : List ℤ} (hcs : c.resultZero.length + 1 ≤ cs.length) {inps i0 i1 : List ℤ} {r : SnipRand}
    {pk0 pk1 : Packet} {k0 k1 : Checker} {o0 o1 : ℤ} (h : HonestRun c t x cs inps i0 i1 r pk0 pk1 k0 k1 o0 o1) :
    addToZero intModulus o0 o1 = true := by
  rw [(h.opposite wf hrc hx hcs).1, addToZero, decide_eq_true_eq, fmod_eq_zero_iff, Int.cast_add, fmod_cast, Int.cast_neg, add_neg_cancel]

/-- The checkers of a row are determined by packets and input shares. -/
theorem RowRun.unique {c : Circuit} {pre : CheckerPre} {cs i0 i1 : List ℤ} {pk0 pk1 : Packet} {k0 k1 k0' k1' : Checker} {o0 o1 o0' o1' : ℤ}
    (h : RowRun c pre cs pk0 pk1 i0 i1 k0 k1 o0 o1) (h' : RowRun c pre cs pk0 pk1 i0 i1 k0' k1' o0' o1') :
    k0 = k0' ∧ k1 = k1' ∧ o0 = o0' ∧ o1 = o1' := by
  have a := h.init0; rw [h'.init0] at a; cases a
  have b := h.init1; rw [h'.init1] at b; cases b
  have a := h.out0; rw [h'.out0] at a; cases a
  have b := h.out1; rw [h'.out1] at b; cases b
  exact ⟨rfl, rfl, rfl, rfl⟩

/-! ### Rows by position -/

theorem rows1_at {ok : SnipRow → Bool} {subs1 : List (Bytes × SnipRow)} {o : Map SnipRow} (hp : o.Perm (admit ok subs1 [])) {i : ℕ} {k : Bytes}
    (hk : o.keys[i]? = some k) : (o.map (·.2))[i]? = firstOf ok subs1 k ∧ (firstOf ok subs1 k).isSome = true := by
  rw [Map.keys, List.getElem?_map, Option.map_eq_some_iff] at hk
  obtain ⟨e, he, rfl⟩ := hk
  rw [List.getElem?_map, he, Option.map_some, order_lookup hp (List.mem_of_getElem? he)]
  exact ⟨rfl, rfl⟩

theorem rows0_at {nMul : ℕ} {ok : SnipRow → Bool} {subs0 : List (Bytes × SnipRow)} {junk : ℕ → List U64} {ks : List Bytes} {i : ℕ} {k : Bytes}
    (hk : ks[i]? = some k) : (rows0 nMul (admit ok subs0 []) junk ks)[i]? = some ((firstOf ok subs0 k).getD ⟨junk i, zeroPacket nMul⟩) := by
  rw [rows0, List.getElem?_mapIdx, hk, Option.map_some, C34_first_admissible]
  rcases firstOf ok subs0 k with _ | r <;> rfl

theorem matched_at {ok : SnipRow → Bool} {subs0 : List (Bytes × SnipRow)} {ks : List Bytes} {i : ℕ} {k : Bytes} (hk : ks[i]? = some k) :
    (matched (admit ok subs0 []) ks)[i]? = some (firstOf ok subs0 k).isSome := by
  rw [matched, List.getElem?_map, hk, Option.map_some, C34_first_admissible]

theorem order_mem {ok : SnipRow → Bool} {subs1 : List (Bytes × SnipRow)} {o : Map SnipRow} (hp : o.Perm (admit ok subs1 [])) {k : Bytes}
    (h : (firstOf ok subs1 k).isSome = true) : k ∈ o.keys := by
  rw [← C34_first_admissible, lookup_isSome_iff] at h
  exact (hp.map _).mem_iff.2 h

theorem honest_at {key : Fin n → Bytes} {ok : SnipRow → Bool} {A : List (Fin n ⊕ Bytes × SnipRow)} (hA : Arrives key A) {f : Fin n → SnipRow}
    (hf : ∀ q, ok (f q) = true) {o : Map SnipRow} (hp : o.Perm (admit ok (fill key A f) [])) (q : Fin n) :
    o.keys.idxOf (key q) < o.length ∧ o.keys[o.keys.idxOf (key q)]? = some (key q) := by
  have hm : key q ∈ o.keys := order_mem hp (by rw [firstOf_honest hA q (hf q)]; rfl)
  have hl := List.idxOf_lt_length_of_mem hm
  refine ⟨by simpa [Map.keys] using hl, ?_⟩
  rw [List.getElem?_eq_getElem hl, List.getElem_idxOf]

theorem piece_length {ni m : ℕ} {s : List ℤ} (hs : s.length = m * ni) {i : ℕ} (hi : i < m) : ((pieces ni m s).getD i []).length = ni := by
  have hpl := pieces_length ni m s
  rw [List.getD_eq_getElem?_getD, List.getElem?_eq_getElem (by omega), Option.getD_some]
  exact pieces_mem ni m s hs _ (List.getElem_mem _)

theorem mem_piece {ni : ℕ} : ∀ {m : ℕ} {s : List ℤ} {i : ℕ} {y : ℤ}, y ∈ (pieces ni m s).getD i [] → y ∈ s
  | 0, _, _, _, h => by simp [pieces] at h
  | m + 1, s, 0, y, h => List.mem_of_mem_take (by simpa [pieces] using h)
  | m + 1, s, i + 1, y, h => List.mem_of_mem_drop (mem_piece (m := m) (i := i) (by simpa [pieces] using h))

theorem getElem?_some_of {β : Type} {l : List β} {i : ℕ} {d b : β} (h : l[i]? = some b) : l.getD i d = b := by
  rw [List.getD_eq_getElem?_getD, h]; rfl

/-- Server 0's view: two runs with the same rows at server 0 in which every honest client's packet and first message look the same to
server 0 and the totals of the honest clients agree. -/
theorem snip_same0 {c : Circuit} (hc : CircOk c) {x : ℤ} {uses pos : ℕ} {st0 st1 : SnipState} (h0 : SnipOk x uses pos st0)
    (h1 : SnipOk x uses pos st1) (coef : ℕ → ℤ) {ws : List ℕ} (hni : nIn c.gates ≤ ws.length) (hw : ∀ w ∈ ws, w ≤ 48)
    (raw0 raw1 : ℕ → ℕ → ℕ → U64) (junk : ℕ → List U64) (hj : ∀ i, (junk i).length = ws.length) (ok : SnipRow → Bool)
    (subs0 : List (Bytes × SnipRow)) (hr0 : ∀ e ∈ subs0, SnipRowOk c ws.length e.2)
    {A0 A1 : List (Fin n ⊕ Bytes × SnipRow)} (hA0 : Arrives key A0) (hA1 : Arrives key A1) {f0 f1 f1' : Fin n → SnipRow}
    (hs0 : subs0 = fill key A0 f0) (hf0 : ∀ q, ok (f0 q) = true) (hf1 : ∀ q, ok (f1 q) = true) (hf1' : ∀ q, ok (f1' q) = true)
    (hk1 : Keyed (fill key A1 f1)) (hk1' : Keyed (fill key A1 f1'))
    (hr1 : ∀ e ∈ fill key A1 f1, SnipRowOk c ws.length e.2) (hr1' : ∀ e ∈ fill key A1 f1', SnipRowOk c ws.length e.2) (hlen : A1.length < 2 ^ 32)
    (o o' : Map SnipRow) (hp : o.Perm (admit ok (fill key A1 f1) [])) (hp' : o'.Perm (admit ok (fill key A1 f1') [])) (hko : o.keys = o'.keys)
    (hne : 0 < o.length) {t : RootTables} {l : List ℕ} (hrc : RootCalls (npow2 c.mulGates.length :: l) t) {pre : CheckerPre}
    (hpre : checkerPre intModulus t (npow2 c.mulGates.length) x = some pre) {inps inps' : Fin n → List ℤ} {r r' : Fin n → SnipRand}
    (hh : ∀ q, HonestRow c ws t (inps q) (r q) (f0 q) (f1 q)) (hh' : ∀ q, HonestRow c ws t (inps' q) (r' q) (f0 q) (f1' q))
    (hview : ∀ q w w', c.eval intModulus (inps q) = some (w, true) → c.eval intModulus (inps' q) = some (w', true) →
      view0 intModulus c w t pre (missing (inps q) (mask0 ws (raw0 (o.keys.idxOf (key q))) (f0 q).vals)) (r q) =
      view0 intModulus c w' t pre (missing (inps' q) (mask0 ws (raw0 (o.keys.idxOf (key q))) (f0 q).vals)) (r' q))
    (hsum : ∀ j < ws.length, ∑ q, (at0 (inps q) j : ZMod intModulus) = ∑ q, (at0 (inps' q) j : ZMod intModulus)) :
    ∃ a num b z z1 z' z1' v w w', PairW (snipOp0 c coef ws raw0 junk st0 (admit ok subs0 []))
        (snipOp1 c coef ws raw1 st1 (admit ok (fill key A1 f1) []) o) (a, num, z) (b, z1) v w ∧
      PairW (snipOp0 c coef ws raw0 junk st0 (admit ok subs0 [])) (snipOp1 c coef ws raw1 st1 (admit ok (fill key A1 f1') []) o')
        (a, num, z') (b, z1') v w' ∧ b.length = ws.length ∧ ∀ y ∈ b, Canon y intModulus := by
  have hol : o.length = o'.length := by
    have := congrArg List.length hko; simpa [Map.keys] using this
  set R0 := rows0 c.mulGates.length (admit ok subs0 []) junk o.keys with hR0
  have hR0' : R0 = rows0 c.mulGates.length (admit ok subs0 []) junk o'.keys := by rw [hR0, hko]
  have hkl : o.keys.length = o.length := by simp [Map.keys]
  have hR0l : R0.length = o.length := by rw [hR0]; simp [rows0]
  have ok0 : ∀ q ∈ R0, SnipRowOk c ws.length q := by rw [hR0]; exact rows0_ok hj hr0 _
  obtain ⟨pre1, t1, l1, hrc1, hpre1, K0, K1, O0, O1, z, z1, hpw, hrow⟩ := snipOp_view hc h0 h1 coef hni hw raw0 raw1 junk hj ok subs0
    (fill key A1 f1) hk1 hr0 hr1 (by simpa [fill] using hlen) o hp hne R0 hR0
  obtain ⟨pre2, t2, l2, hrc2, hpre2, K0', K1', O0', O1', z', z1', hpw', hrow'⟩ := snipOp_view hc h0 h1 coef hni hw raw0 raw1 junk hj ok subs0
    (fill key A1 f1') hk1' hr0 hr1' (by simpa [fill] using hlen) o' hp' (by omega) R0 hR0'
  cases rootCalls_eq hrc hrc1
  cases rootCalls_eq hrc hrc2
  rw [hpre] at hpre1 hpre2
  cases hpre1; cases hpre2
  rw [← hol] at hpw' hrow'
  obtain ⟨-, s0l, s1l, s0c, s1c, hsm⟩ := convert_view hw raw0 raw1 hR0l (by simp : (o.map (·.2)).length = o.length) ok0 (rows1_ok hr1 hp)
  obtain ⟨-, -, s1l', -, s1c', hsm'⟩ := convert_view hw raw0 raw1 hR0l (by simp [hol] : (o'.map (·.2)).length = o.length) ok0 (rows1_ok hr1' hp')
  set s0 := conv0 ws raw0 R0 with hs0d
  set s1 := conv1 ws o.length (convWords ws raw0 R0 (o.map (·.2))) with hs1d
  set s1' := conv1 ws o.length (convWords ws raw0 R0 (o'.map (·.2))) with hs1d'
  -- sums of the pieces
  have hps : ∀ i < o.length, ∀ r0 r1, R0[i]? = some r0 → (o.map (·.2))[i]? = some r1 → ∀ j < ws.length,
      (at0 ((pieces ws.length o.length s0).getD i []) j + at0 ((pieces ws.length o.length s1).getD i []) j : ZMod intModulus) =
        ((recVal ws r0 r1 j : ℕ) : ZMod intModulus) := by
    intro i hi r0 r1 e0 e1 j hj'
    have := hsm i hi j hj'
    rw [getElem?_some_of e0, getElem?_some_of e1] at this
    rw [← this, at0, at0, getD_pieces _ _ _ _ _ hi hj', getD_pieces _ _ _ _ _ hi hj']; rfl
  have hps' : ∀ i < o.length, ∀ r0 r1, R0[i]? = some r0 → (o'.map (·.2))[i]? = some r1 → ∀ j < ws.length,
      (at0 ((pieces ws.length o.length s0).getD i []) j + at0 ((pieces ws.length o.length s1').getD i []) j : ZMod intModulus) =
        ((recVal ws r0 r1 j : ℕ) : ZMod intModulus) := by
    intro i hi r0 r1 e0 e1 j hj'
    have := hsm' i hi j hj'
    rw [getElem?_some_of e0, getElem?_some_of e1] at this
    rw [← this, at0, at0, getD_pieces _ _ _ _ _ hi hj', getD_pieces _ _ _ _ _ hi hj']; rfl
  have hnd := order_nodup hp
  -- honest positions
  have hon : ∀ q, R0[o.keys.idxOf (key q)]? = some (f0 q) ∧ (o.map (·.2))[o.keys.idxOf (key q)]? = some (f1 q) ∧
      (o'.map (·.2))[o.keys.idxOf (key q)]? = some (f1' q) := by
    intro q
    obtain ⟨hl, hk⟩ := honest_at hA1 hf1 hp q
    refine ⟨?_, ?_, ?_⟩
    · rw [hR0, rows0_at hk, hs0, firstOf_honest hA0 q (hf0 q)]; rfl
    · rw [(rows1_at hp hk).1, firstOf_honest hA1 q (hf1 q)]
    · rw [hko] at hk ⊢
      rw [(rows1_at hp' hk).1, firstOf_honest hA1 q (hf1' q)]
  have oth : ∀ i < o.length, (∀ q, o.keys.idxOf (key q) ≠ i) → (o.map (·.2))[i]? = (o'.map (·.2))[i]? := by
    intro i hi hq
    have hk : o.keys[i]? = some (o.keys[i]'(by omega)) := List.getElem?_eq_getElem _
    rw [(rows1_at hp hk).1, (rows1_at hp' (by rw [← hko]; exact hk)).1]
    refine firstOf_other A1 f1 f1' fun q e => hq q ?_
    rw [e]; exact hnd.idxOf_getElem i _
  -- everything server 0 sees of a row is the same
  have same : ∀ i < o.length, (K1 i).corShare intModulus = (K1' i).corShare intModulus ∧ O0 i = O0' i ∧ O1 i = O1' i := by
    intro i hi
    obtain ⟨r0, r1, e0, e1, hr⟩ := hrow i hi
    obtain ⟨r0', r1', e0', e1', hr'⟩ := hrow' i hi
    rw [e0] at e0'; cases e0'
    by_cases hq : ∃ q, o.keys.idxOf (key q) = i
    · obtain ⟨q, rfl⟩ := hq
      obtain ⟨g0, g1, g1'⟩ := hon q
      rw [e0] at g0; cases g0
      rw [e1] at g1; cases g1
      rw [e1'] at g1'; cases g1'
      have p0 : (pieces ws.length o.length s0).getD (o.keys.idxOf (key q)) [] = mask0 ws (raw0 (o.keys.idxOf (key q))) (f0 q).vals := by
        rw [hs0d, ← hR0l]; exact piece0 raw0 (fun q hq => (ok0 q hq).vals) e0
      have l0 := piece_length s0l hi
      have hR := (hh q).run hpre l0 (piece_length s1l hi) (hps _ hi _ _ e0 e1) hr
      have hR' := (hh' q).run hpre l0 (piece_length s1l' hi) (hps' _ hi _ _ e0 e1') hr'
      have m1 : (pieces ws.length o.length s1).getD (o.keys.idxOf (key q)) [] =
          missing (inps q) (mask0 ws (raw0 (o.keys.idxOf (key q))) (f0 q).vals) := by
        rw [← p0]
        exact missing_eq (by rw [piece_length s1l hi, (hh q).len]) (fun y hy => s1c y (mem_piece hy)) hR.sum
      have m1' : (pieces ws.length o.length s1').getD (o.keys.idxOf (key q)) [] =
          missing (inps' q) (mask0 ws (raw0 (o.keys.idxOf (key q))) (f0 q).vals) := by
        rw [← p0]
        exact missing_eq (by rw [piece_length s1l' hi, (hh' q).len]) (fun y hy => s1c' y (mem_piece hy)) hR'.sum
      obtain ⟨w, ev, sp⟩ := (hh q).eval
      obtain ⟨w', ev', sp'⟩ := (hh' q).eval
      have hv := hview q w w' ev ev'
      have i1 := hr.init1
      have i1' := hr'.init1
      rw [m1] at i1
      rw [m1'] at i1'
      rw [view0, view0, sp, sp', Option.bind_some, Option.bind_some, i1, i1', Option.map_some, Option.map_some, Option.some.injEq,
        Prod.mk.injEq] at hv
      have hcs : c.resultZero.length + 1 ≤ (coefs coef pos (c.resultZero.length + 1) (o.keys.idxOf (key q))).length := by rw [coefs_length]
      have k00 := hr.init0
      rw [hr'.init0] at k00
      have hk0 : K0 (o.keys.idxOf (key q)) = K0' (o.keys.idxOf (key q)) := (Option.some.inj k00).symm
      refine ⟨hv.2, ?_, C32_final0 hc.wf hrc h0.canon hcs hR hR' hv.2⟩
      have q0 := hr.out0
      rw [hk0, hv.2, hr'.out0] at q0
      exact (Option.some.inj q0).symm
    · have hr1e := oth i hi (not_exists.1 hq)
      rw [e1, e1'] at hr1e
      cases hr1e
      have pe : (pieces ws.length o.length s1).getD i [] = (pieces ws.length o.length s1').getD i [] := by
        have a1 := missing_eq (inps := (List.range ws.length).map fun j => ((recVal ws r0 r1 j : ℕ) : ℤ))
          (a := (pieces ws.length o.length s0).getD i []) (b := (pieces ws.length o.length s1).getD i []) (by rw [piece_length s1l hi]; simp)
          (fun y hy => s1c y (mem_piece hy)) (fun j hj' => by
            have hj' : j < ws.length := by simpa using hj'
            rw [hps i hi r0 r1 e0 e1 j hj']
            simp [at0, List.getD_eq_getElem?_getD, hj'])
        have a2 := missing_eq (inps := (List.range ws.length).map fun j => ((recVal ws r0 r1 j : ℕ) : ℤ))
          (a := (pieces ws.length o.length s0).getD i []) (b := (pieces ws.length o.length s1').getD i []) (by rw [piece_length s1l' hi]; simp)
          (fun y hy => s1c' y (mem_piece hy)) (fun j hj' => by
            have hj' : j < ws.length := by simpa using hj'
            rw [hps' i hi r0 r1 e0 e1' j hj']
            simp [at0, List.getD_eq_getElem?_getD, hj'])
        rw [a1, a2]
      rw [← pe] at hr'
      obtain ⟨-, u1, u2, u3⟩ := hr.unique hr'
      exact ⟨by rw [u1], u2, u3⟩
  have eV : verdicts o.length O0' O1' = verdicts o.length O0 O1 := by
    refine List.map_congr_left fun i hi => ?_
    obtain ⟨-, u, v⟩ := same i (List.mem_range.1 hi)
    rw [u, v]
  have eK : checkSeen o.length (fun i => (K1' i).corShare intModulus) O1' = checkSeen o.length (fun i => (K1 i).corShare intModulus) O1 := by
    unfold checkSeen
    rw [List.map_congr_left fun i hi => (same i (List.mem_range.1 hi)).1.symm,
      List.map_congr_left fun i hi => (same i (List.mem_range.1 hi)).2.2.symm]
  have eC : combined (admit ok subs0 []) o'.keys o.length O0' O1' = combined (admit ok subs0 []) o.keys o.length O0 O1 := by
    rw [combined, combined, eV, hko]
  rw [eK, eC, ← hko] at hpw'
  set V := combined (admit ok subs0 []) o.keys o.length O0 O1 with hV
  have hVl : V.length = o.length := by simp [hV, combined, matched_length, verdicts]
  obtain ⟨B1, B2, B3⟩ := accumulate_spec (pieces ws.length o.length s1) V (by rw [pieces_length, hVl]) (pieces_mem _ _ _ s1l)
  obtain ⟨B1', B2', B3'⟩ := accumulate_spec (pieces ws.length o.length s1') V (by rw [pieces_length, hVl]) (pieces_mem _ _ _ s1l')
  -- honest rows are valid
  have hVq : ∀ q, V.getD (o.keys.idxOf (key q)) false = true := by
    intro q
    obtain ⟨hl, hk⟩ := honest_at hA1 hf1 hp q
    obtain ⟨g0, g1, -⟩ := hon q
    obtain ⟨r0, r1, e0, e1, hr⟩ := hrow _ hl
    rw [e0] at g0; cases g0
    rw [e1] at g1; cases g1
    have hR := (hh q).run hpre (piece_length s0l hl) (piece_length s1l hl) (hps _ hl _ _ e0 e1) hr
    have hacc := hR.accepted hc.wf hrc h0.canon (by rw [coefs_length])
    rw [hV, combined, List.getD_eq_getElem?_getD, List.getElem?_zipWith, matched_at hk, hs0, firstOf_honest hA0 q (hf0 q), verdicts,
      List.getElem?_map, List.getElem?_range hl]
    simpa using hacc
  have eb : accumulate ws.length (pieces ws.length o.length s1') V = accumulate ws.length (pieces ws.length o.length s1) V := by
    apply List.ext_getElem
    · rw [B1, B1']
    · intro j hj1 hj2
      have hj' : j < ws.length := by omega
      refine canon_eq_of_cast (B2' _ (List.getElem_mem _)) (B2 _ (List.getElem_mem _)) ?_
      have a := B3 j hj'
      have a' := B3' j hj'
      simp only [at0, List.getD_eq_getElem?_getD, List.getElem?_eq_getElem hj2, Option.getD_some] at a
      simp only [at0, List.getD_eq_getElem?_getD, List.getElem?_eq_getElem hj1, Option.getD_some] at a'
      rw [a, a', ← sub_eq_zero, pieces_length, pieces_length, ← Finset.sum_sub_distrib]
      have term : ∀ i ∈ Finset.range o.length,
          ((if (V[i]?.getD false) = true then ((((pieces ws.length o.length s1')[i]?.getD [])[j]?.getD 0 : ℤ) : ZMod intModulus) else 0) -
            if (V[i]?.getD false) = true then ((((pieces ws.length o.length s1)[i]?.getD [])[j]?.getD 0 : ℤ) : ZMod intModulus) else 0) =
          ∑ q, if o.keys.idxOf (key q) = i then ((at0 (inps' q) j : ZMod intModulus) - at0 (inps q) j) else 0 := by
        intro i hi
        have hi := Finset.mem_range.1 hi
        obtain ⟨r0, r1, e0, e1, hr⟩ := hrow i hi
        obtain ⟨r0', r1', e0', e1', hr'⟩ := hrow' i hi
        rw [e0] at e0'; cases e0'
        have d1 := hps i hi r0 r1 e0 e1 j hj'
        have d1' := hps' i hi r0 r1' e0 e1' j hj'
        have d : ((at0 ((pieces ws.length o.length s1').getD i []) j : ZMod intModulus) - at0 ((pieces ws.length o.length s1).getD i []) j) =
            ((recVal ws r0 r1' j : ℕ) : ZMod intModulus) - ((recVal ws r0 r1 j : ℕ) : ZMod intModulus) := by
          rw [← d1, ← d1']; ring
        simp only [at0, List.getD_eq_getElem?_getD] at d
        by_cases hq : ∃ q, o.keys.idxOf (key q) = i
        · obtain ⟨q, rfl⟩ := hq
          obtain ⟨g0, g1, g1'⟩ := hon q
          rw [e0] at g0; cases g0
          rw [e1] at g1; cases g1
          rw [e1'] at g1'; cases g1'
          have hv := hVq q
          rw [List.getD_eq_getElem?_getD] at hv
          rw [if_pos hv, if_pos hv, d, (hh q).val j hj', (hh' q).val j hj', Finset.sum_eq_single q]
          · rw [if_pos rfl]
          · intro q' _ hne'
            refine if_neg fun e => hne' (hA1.inj ?_)
            have := (honest_at hA1 hf1 hp q').2
            rw [e, (honest_at hA1 hf1 hp q).2] at this
            exact (Option.some.inj this).symm
          · intro h; exact absurd (Finset.mem_univ _) h
        · have hr1e := oth i hi (not_exists.1 hq)
          rw [e1, e1'] at hr1e
          cases hr1e
          rw [Finset.sum_eq_zero fun q _ => if_neg (not_exists.1 hq q)]
          split
          · rw [d, sub_self]
          · rw [sub_self]
      rw [Finset.sum_congr rfl term, Finset.sum_comm, Finset.sum_congr rfl fun q _ => Finset.sum_ite_eq _ _ _]
      rw [Finset.sum_congr rfl fun q _ => if_pos (Finset.mem_range.2 (honest_at hA1 hf1 hp q).1), Finset.sum_sub_distrib, hsum j hj', sub_self]
  rw [eb] at hpw'
  exact ⟨_, _, _, _, _, _, _, _, _, _, hpw, hpw', B1, B2⟩

/-- Server 1's view: two runs with the same rows at server 1 and the same OT words in which every honest client's packet and first message
look the same to server 1. -/
theorem snip_same1 {c : Circuit} (hc : CircOk c) {x : ℤ} {uses pos : ℕ} {st0 st1 : SnipState} (h0 : SnipOk x uses pos st0)
    (h1 : SnipOk x uses pos st1) (coef : ℕ → ℤ) {ws : List ℕ} (hni : nIn c.gates ≤ ws.length) (hw : ∀ w ∈ ws, w ≤ 48)
    (raw0 raw0' raw1 : ℕ → ℕ → ℕ → U64) (junk : ℕ → List U64) (hj : ∀ i, (junk i).length = ws.length) (ok : SnipRow → Bool)
    (subs1 : List (Bytes × SnipRow)) (hr1 : ∀ e ∈ subs1, SnipRowOk c ws.length e.2) (hk1 : Keyed subs1) (hlen : subs1.length < 2 ^ 32)
    {A0 A1 : List (Fin n ⊕ Bytes × SnipRow)} (hA0 : Arrives key A0) (hA1 : Arrives key A1) {f0 f0' f1 : Fin n → SnipRow}
    (hs1 : subs1 = fill key A1 f1) (hf0 : ∀ q, ok (f0 q) = true) (hf0' : ∀ q, ok (f0' q) = true) (hf1 : ∀ q, ok (f1 q) = true)
    (hr0 : ∀ e ∈ fill key A0 f0, SnipRowOk c ws.length e.2) (hr0' : ∀ e ∈ fill key A0 f0', SnipRowOk c ws.length e.2)
    (o : Map SnipRow) (hp : o.Perm (admit ok subs1 [])) (hne : 0 < o.length) {t : RootTables} {l : List ℕ}
    (hrc : RootCalls (npow2 c.mulGates.length :: l) t) {pre : CheckerPre}
    (hpre : checkerPre intModulus t (npow2 c.mulGates.length) x = some pre) {inps inps' : Fin n → List ℤ} {r r' : Fin n → SnipRand}
    (hh : ∀ q, HonestRow c ws t (inps q) (r q) (f0 q) (f1 q)) (hh' : ∀ q, HonestRow c ws t (inps' q) (r' q) (f0' q) (f1 q))
    (hwords : convWords ws raw0 (rows0 c.mulGates.length (admit ok (fill key A0 f0) []) junk o.keys) (o.map (·.2)) =
      convWords ws raw0' (rows0 c.mulGates.length (admit ok (fill key A0 f0') []) junk o.keys) (o.map (·.2)))
    (hview : ∀ q w w', c.eval intModulus (inps q) = some (w, true) → c.eval intModulus (inps' q) = some (w', true) →
      view1 intModulus c w t pre (mask0 ws (raw0 (o.keys.idxOf (key q))) (f0 q).vals) (r q) =
      view1 intModulus c w' t pre (mask0 ws (raw0' (o.keys.idxOf (key q))) (f0' q).vals) (r' q)) :
    ∃ a a' b z z1 z' z1' v v' w, PairW (snipOp0 c coef ws raw0 junk st0 (admit ok (fill key A0 f0) []))
        (snipOp1 c coef ws raw1 st1 (admit ok subs1 []) o) (a, z) (b, z1) v w ∧
      PairW (snipOp0 c coef ws raw0' junk st0 (admit ok (fill key A0 f0') [])) (snipOp1 c coef ws raw1 st1 (admit ok subs1 []) o)
        (a', z') (b, z1') v' w ∧ b.length = ws.length ∧ ∀ y ∈ b, Canon y intModulus := by
  set R0 := rows0 c.mulGates.length (admit ok (fill key A0 f0) []) junk o.keys with hR0
  set R0' := rows0 c.mulGates.length (admit ok (fill key A0 f0') []) junk o.keys with hR0'
  have hkl : o.keys.length = o.length := by simp [Map.keys]
  have hR0l : R0.length = o.length := by rw [hR0]; simp [rows0]
  have hR0l' : R0'.length = o.length := by rw [hR0']; simp [rows0]
  have ok0 : ∀ q ∈ R0, SnipRowOk c ws.length q := by rw [hR0]; exact rows0_ok hj hr0 _
  have ok0' : ∀ q ∈ R0', SnipRowOk c ws.length q := by rw [hR0']; exact rows0_ok hj hr0' _
  obtain ⟨pre1, t1, l1, hrc1, hpre1, K0, K1, O0, O1, z, z1, hpw, hrow⟩ := snipOp_view hc h0 h1 coef hni hw raw0 raw1 junk hj ok
    (fill key A0 f0) subs1 hk1 hr0 hr1 hlen o hp hne R0 hR0
  obtain ⟨pre2, t2, l2, hrc2, hpre2, K0', K1', O0', O1', z', z1', hpw', hrow'⟩ := snipOp_view hc h0 h1 coef hni hw raw0' raw1 junk hj ok
    (fill key A0 f0') subs1 hk1 hr0' hr1 hlen o hp hne R0' hR0'
  cases rootCalls_eq hrc hrc1
  cases rootCalls_eq hrc hrc2
  rw [hpre] at hpre1 hpre2
  cases hpre1; cases hpre2
  obtain ⟨-, s0l, s1l, s0c, s1c, hsm⟩ := convert_view hw raw0 raw1 hR0l (by simp : (o.map (·.2)).length = o.length) ok0 (rows1_ok hr1 hp)
  obtain ⟨-, s0l', -, s0c', -, hsm'⟩ := convert_view hw raw0' raw1 hR0l' (by simp : (o.map (·.2)).length = o.length) ok0' (rows1_ok hr1 hp)
  rw [← hwords] at hpw' hrow' hsm'
  set s0 := conv0 ws raw0 R0 with hs0d
  set s0' := conv0 ws raw0' R0' with hs0d'
  set s1 := conv1 ws o.length (convWords ws raw0 R0 (o.map (·.2))) with hs1d
  have hps : ∀ i < o.length, ∀ r0 r1, R0[i]? = some r0 → (o.map (·.2))[i]? = some r1 → ∀ j < ws.length,
      (at0 ((pieces ws.length o.length s0).getD i []) j + at0 ((pieces ws.length o.length s1).getD i []) j : ZMod intModulus) =
        ((recVal ws r0 r1 j : ℕ) : ZMod intModulus) := by
    intro i hi r0 r1 e0 e1 j hj'
    have := hsm i hi j hj'
    rw [getElem?_some_of e0, getElem?_some_of e1] at this
    rw [← this, at0, at0, getD_pieces _ _ _ _ _ hi hj', getD_pieces _ _ _ _ _ hi hj']; rfl
  have hps' : ∀ i < o.length, ∀ r0 r1, R0'[i]? = some r0 → (o.map (·.2))[i]? = some r1 → ∀ j < ws.length,
      (at0 ((pieces ws.length o.length s0').getD i []) j + at0 ((pieces ws.length o.length s1).getD i []) j : ZMod intModulus) =
        ((recVal ws r0 r1 j : ℕ) : ZMod intModulus) := by
    intro i hi r0 r1 e0 e1 j hj'
    have := hsm' i hi j hj'
    rw [getElem?_some_of e0, getElem?_some_of e1] at this
    rw [← this, at0, at0, getD_pieces _ _ _ _ _ hi hj', getD_pieces _ _ _ _ _ hi hj']; rfl
  have hnd := order_nodup hp
  subst hs1
  have hon : ∀ q, R0[o.keys.idxOf (key q)]? = some (f0 q) ∧ R0'[o.keys.idxOf (key q)]? = some (f0' q) ∧
      (o.map (·.2))[o.keys.idxOf (key q)]? = some (f1 q) := by
    intro q
    obtain ⟨hl, hk⟩ := honest_at hA1 hf1 hp q
    refine ⟨?_, ?_, ?_⟩
    · rw [hR0, rows0_at hk, firstOf_honest hA0 q (hf0 q)]; rfl
    · rw [hR0', rows0_at hk, firstOf_honest hA0 q (hf0' q)]; rfl
    · rw [(rows1_at hp hk).1, firstOf_honest hA1 q (hf1 q)]
  have oth : ∀ i < o.length, (∀ q, o.keys.idxOf (key q) ≠ i) → R0[i]? = R0'[i]? ∧
      (matched (admit ok (fill key A0 f0) []) o.keys)[i]? = (matched (admit ok (fill key A0 f0') []) o.keys)[i]? := by
    intro i hi hq
    have hk : o.keys[i]? = some (o.keys[i]'(by omega)) := List.getElem?_eq_getElem _
    have e := firstOf_other (key := key) (ok := ok) A0 f0 f0' (k := o.keys[i]'(by omega)) fun q e => hq q (by
      rw [e]; exact hnd.idxOf_getElem i _)
    rw [hR0, hR0', rows0_at hk, rows0_at hk, matched_at hk, matched_at hk, e]
    exact ⟨rfl, rfl⟩
  have same : ∀ i < o.length, (K0 i).corShare intModulus = (K0' i).corShare intModulus ∧ O0 i = O0' i ∧ O1 i = O1' i := by
    intro i hi
    obtain ⟨r0, r1, e0, e1, hr⟩ := hrow i hi
    obtain ⟨r0', r1', e0', e1', hr'⟩ := hrow' i hi
    rw [e1] at e1'; cases e1'
    by_cases hq : ∃ q, o.keys.idxOf (key q) = i
    · obtain ⟨q, rfl⟩ := hq
      obtain ⟨g0, g0', g1⟩ := hon q
      rw [e0] at g0; cases g0
      rw [e0'] at g0'; cases g0'
      rw [e1] at g1; cases g1
      have p0 : (pieces ws.length o.length s0).getD (o.keys.idxOf (key q)) [] = mask0 ws (raw0 (o.keys.idxOf (key q))) (f0 q).vals := by
        rw [hs0d, ← hR0l]; exact piece0 raw0 (fun q hq => (ok0 q hq).vals) e0
      have p0' : (pieces ws.length o.length s0').getD (o.keys.idxOf (key q)) [] = mask0 ws (raw0' (o.keys.idxOf (key q))) (f0' q).vals := by
        rw [hs0d', ← hR0l']; exact piece0 raw0' (fun q hq => (ok0' q hq).vals) e0'
      have l1 := piece_length s1l hi
      have hR := (hh q).run hpre (piece_length s0l hi) l1 (hps _ hi _ _ e0 e1) hr
      have hR' := (hh' q).run hpre (piece_length s0l' hi) l1 (hps' _ hi _ _ e0' e1) hr'
      obtain ⟨w, ev, sp⟩ := (hh q).eval
      obtain ⟨w', ev', sp'⟩ := (hh' q).eval
      have hv := hview q w w' ev ev'
      have i0 := hr.init0
      have i0' := hr'.init0
      rw [p0] at i0
      rw [p0'] at i0'
      rw [view1, view1, sp, sp', Option.bind_some, Option.bind_some, i0, i0', Option.map_some, Option.map_some, Option.some.injEq,
        Prod.mk.injEq] at hv
      have hcs : c.resultZero.length + 1 ≤ (coefs coef pos (c.resultZero.length + 1) (o.keys.idxOf (key q))).length := by rw [coefs_length]
      have k11 := hr.init1
      rw [hr'.init1] at k11
      have hk1 : K1 (o.keys.idxOf (key q)) = K1' (o.keys.idxOf (key q)) := (Option.some.inj k11).symm
      refine ⟨hv.2, C32_final1 hc.wf hrc h0.canon hcs hR hR' hv.2, ?_⟩
      have q1 := hr.out1
      rw [hk1, hv.2, hr'.out1] at q1
      exact (Option.some.inj q1).symm
    · have hr0e := (oth i hi (not_exists.1 hq)).1
      rw [e0, e0'] at hr0e
      cases hr0e
      have pe : (pieces ws.length o.length s0).getD i [] = (pieces ws.length o.length s0').getD i [] := by
        have a1 := missing_eq (inps := (List.range ws.length).map fun j => ((recVal ws r0 r1 j : ℕ) : ℤ))
          (a := (pieces ws.length o.length s1).getD i []) (b := (pieces ws.length o.length s0).getD i []) (by rw [piece_length s0l hi]; simp)
          (fun y hy => s0c y (mem_piece hy)) (fun j hj' => by
            have hj' : j < ws.length := by simpa using hj'
            rw [add_comm, hps i hi r0 r1 e0 e1 j hj']
            simp [at0, List.getD_eq_getElem?_getD, hj'])
        have a2 := missing_eq (inps := (List.range ws.length).map fun j => ((recVal ws r0 r1 j : ℕ) : ℤ))
          (a := (pieces ws.length o.length s1).getD i []) (b := (pieces ws.length o.length s0').getD i []) (by rw [piece_length s0l' hi]; simp)
          (fun y hy => s0c' y (mem_piece hy)) (fun j hj' => by
            have hj' : j < ws.length := by simpa using hj'
            rw [add_comm, hps' i hi r0 r1 e0' e1 j hj']
            simp [at0, List.getD_eq_getElem?_getD, hj'])
        rw [a1, a2]
      rw [← pe] at hr'
      obtain ⟨u1, -, u2, u3⟩ := hr.unique hr'
      exact ⟨by rw [u1], u2, u3⟩
  have eV : verdicts o.length O0' O1' = verdicts o.length O0 O1 := by
    refine List.map_congr_left fun i hi => ?_
    obtain ⟨-, u, v⟩ := same i (List.mem_range.1 hi)
    rw [u, v]
  have eK : checkSeen o.length (fun i => (K0' i).corShare intModulus) O0' = checkSeen o.length (fun i => (K0 i).corShare intModulus) O0 := by
    unfold checkSeen
    rw [List.map_congr_left fun i hi => (same i (List.mem_range.1 hi)).1.symm,
      List.map_congr_left fun i hi => (same i (List.mem_range.1 hi)).2.1.symm]
  have eM : matched (admit ok (fill key A0 f0') []) o.keys = matched (admit ok (fill key A0 f0) []) o.keys := by
    apply List.ext_getElem?
    intro i
    by_cases hi : i < o.length
    · by_cases hq : ∃ q, o.keys.idxOf (key q) = i
      · obtain ⟨q, rfl⟩ := hq
        have hk := (honest_at hA1 hf1 hp q).2
        rw [matched_at hk, matched_at hk, firstOf_honest hA0 q (hf0 q), firstOf_honest hA0 q (hf0' q)]; rfl
      · exact (oth i hi (not_exists.1 hq)).2.symm
    · rw [List.getElem?_eq_none (by rw [matched_length, hkl]; omega), List.getElem?_eq_none (by rw [matched_length, hkl]; omega)]
  have eC : combined (admit ok (fill key A0 f0') []) o.keys o.length O0' O1' = combined (admit ok (fill key A0 f0) []) o.keys o.length O0 O1 := by
    rw [combined, combined, eV, eM]
  rw [eK, eC] at hpw'
  obtain ⟨B1, B2, -⟩ := accumulate_spec (pieces ws.length o.length s1) (combined (admit ok (fill key A0 f0) []) o.keys o.length O0 O1)
    (by simp [combined, matched_length, verdicts, pieces_length]) (pieces_mem _ _ _ s1l)
  exact ⟨_, _, _, _, _, _, _, _, _, _, hpw, hpw', B1, B2⟩

end Verif

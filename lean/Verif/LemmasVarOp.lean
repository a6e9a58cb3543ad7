import Verif.LemmasVar

/-! # Lemmas about the part common to `var_op` and `linreg_op` -/

namespace Verif

/-! ### `accumulate` -/

theorem sum_range_list {M α : Type} [AddCommMonoid M] (l : List α) (f : ℕ → α → M) (g : ℕ → M)
    (h : ∀ i a, l[i]? = some a → g i = f i a) :
    ∑ i ∈ Finset.range l.length, g i = (l.mapIdx f).sum := by
  induction l generalizing f g with
  | nil => simp
  | cons a l ih =>
    rw [List.length_cons, Finset.sum_range_succ', List.mapIdx_cons, List.sum_cons,
      ← ih (fun i => f (i + 1)) (fun i => g (i + 1)) (fun i b hb => h (i + 1) b (by simpa using hb)),
      h 0 a (by simp), add_comm]

theorem accumulate_aux {ni : ℕ} : ∀ (rows : List (List ℤ)) (valid : List Bool) (acc : List ℤ), rows.length = valid.length →
    (∀ r ∈ rows, r.length = ni) → acc.length = ni → (∀ a ∈ acc, Canon a intModulus) →
    ∀ res, res = (rows.zip valid).foldl
      (fun acc e => if e.2 then List.zipWith (fun a s => fmod (a + s) intModulus) acc e.1 else acc) acc →
    res.length = ni ∧ (∀ a ∈ res, Canon a intModulus) ∧
    ∀ j < ni, (at0 res j : ZMod intModulus) = at0 acc j +
      ∑ i ∈ Finset.range rows.length, if valid.getD i false then (at0 (rows.getD i []) j : ZMod intModulus) else 0
  | [], valid, acc, _, _, ha, hc, res, h => by
    subst h
    exact ⟨by simpa using ha, by simpa using hc, by simp⟩
  | r :: rows, [], acc, hl, _, _, _, _, _ => by simp at hl
  | r :: rows, v :: valid, acc, hl, hr, ha, hc, res, h => by
    have hr0 := hr r (List.mem_cons_self ..)
    rw [List.zip_cons_cons, List.foldl_cons] at h
    obtain ⟨g1, g2, g3⟩ := accumulate_aux rows valid
      (if v then List.zipWith (fun a s => fmod (a + s) intModulus) acc r else acc) (by simpa using hl)
      (fun q hq => hr q (List.mem_cons_of_mem _ hq)) (by split_ifs <;> simp [ha, hr0]) (by
        split_ifs
        · intro a ha'
          rw [List.mem_iff_getElem] at ha'
          obtain ⟨i, hi, rfl⟩ := ha'
          rw [List.getElem_zipWith]; exact fmod_canon _
        · exact hc) res h
    refine ⟨g1, g2, fun j hj => ?_⟩
    rw [g3 j hj, List.length_cons, Finset.sum_range_succ']
    have e : (at0 (if v then List.zipWith (fun a s => fmod (a + s) intModulus) acc r else acc) j : ZMod intModulus) =
        at0 acc j + if v then (at0 r j : ZMod intModulus) else 0 := by
      cases v
      · simp
      · simp only [if_true, at0]
        rw [List.getD_eq_getElem?_getD, List.getElem?_eq_getElem (by simp; omega), List.getElem_zipWith, Option.getD_some,
          List.getD_eq_getElem?_getD, List.getElem?_eq_getElem (by omega), List.getD_eq_getElem?_getD,
          List.getElem?_eq_getElem (by omega)]
        simp
    rw [e]
    simp only [List.getD_cons_succ, List.getD_cons_zero]
    ring

theorem accumulate_spec {ni : ℕ} (rows : List (List ℤ)) (valid : List Bool) (hl : rows.length = valid.length)
    (hr : ∀ r ∈ rows, r.length = ni) :
    (accumulate ni rows valid).length = ni ∧ (∀ a ∈ accumulate ni rows valid, Canon a intModulus) ∧
    ∀ j < ni, (at0 (accumulate ni rows valid) j : ZMod intModulus) =
      ∑ i ∈ Finset.range rows.length, if valid.getD i false then (at0 (rows.getD i []) j : ZMod intModulus) else 0 := by
  obtain ⟨h1, h2, h3⟩ := accumulate_aux rows valid (List.replicate ni 0) hl hr (by simp) (by
    intro a ha
    rw [List.eq_of_mem_replicate ha]
    simp only [Canon]; decide) _ rfl
  refine ⟨h1, h2, fun j hj => ?_⟩
  have := h3 j hj
  have hz : at0 (List.replicate ni 0) j = 0 := by
    simp [at0, List.getD_eq_getElem?_getD, hj]
  rw [hz, Int.cast_zero, zero_add] at this
  exact this

/-! ### Specification -/

/-- Value `j` of a submission, from the two shares. -/
def recVal (ws : List ℕ) (r0 r1 : SnipRow) (j : ℕ) : ℕ :=
  (r0.vals.getD j 0#64 ^^^ r1.vals.getD j 0#64).toNat % 2 ^ ws.getD j 0

/-- The values of a submission as elements of the field. -/
def recIn (ws : List ℕ) (r0 r1 : SnipRow) : List ℤ := (List.range ws.length).map fun j => fmod (recVal ws r0 r1 j) intModulus

/-- A row of the sizes with which it is read. -/
structure SnipRowOk (c : Circuit) (nv : ℕ) (r : SnipRow) : Prop where
  vals : r.vals.length = nv
  pk : PacketOk c r.packet

/-- The submission under `k` passes the check with the coefficients `cs`. -/
def Passes (c : Circuit) (x : ℤ) (ws : List ℕ) (ok : SnipRow → Bool) (subs0 subs1 : List (Bytes × SnipRow)) (cs : List ℤ) (k : Bytes) : Prop :=
  ∃ r0 r1, firstOf ok subs0 k = some r0 ∧ firstOf ok subs1 k = some r1 ∧ Accepts c x cs (recIn ws r0 r1) r0.packet r1.packet

open Classical in
/-- The keys admitted at both servers whose submissions pass; `order` is the order in which server 1 announces the keys, and the
coefficients of a key are found at its position there. -/
noncomputable def passing (c : Circuit) (x : ℤ) (coef : ℕ → ℤ) (pos : ℕ) (ws : List ℕ) (ok : SnipRow → Bool)
    (subs0 subs1 : List (Bytes × SnipRow)) (order : List Bytes) : Finset Bytes :=
  (bothKeys ok subs0 subs1).filter fun k =>
    Passes c x ws ok subs0 subs1 (coefs coef pos (c.resultZero.length + 1) (order.idxOf k)) k

/-- The value `j` of the submission under `k` (0 if it is not held by both servers). -/
def keyVal (ws : List ℕ) (ok : SnipRow → Bool) (subs0 subs1 : List (Bytes × SnipRow)) (j : ℕ) (k : Bytes) : ℕ :=
  match firstOf ok subs0 k, firstOf ok subs1 k with
  | some r0, some r1 => recVal ws r0 r1 j
  | _, _ => 0

theorem zeroPacket_ok (c : Circuit) : PacketOk c (zeroPacket c.mulGates.length) := ⟨by simp [zeroPacket], by simp [zeroPacket]⟩

theorem firstOf_mem {α : Type} {ok : α → Bool} {subs : List (Bytes × α)} {k : Bytes} {v : α} (h : firstOf ok subs k = some v) :
    (k, v) ∈ subs := by
  unfold firstOf at h
  rw [Option.map_eq_some_iff] at h
  obtain ⟨s, hs, rfl⟩ := h
  have hm := List.mem_of_find?_eq_some hs
  have hp := List.find?_some hs
  simp only [Bool.and_eq_true, beq_iff_eq] at hp
  rw [← hp.1]; exact hm

theorem snipOp_pair {c : Circuit} (hc : CircOk c) {x : ℤ} {uses pos : ℕ} {st0 st1 : SnipState} (h0 : SnipOk x uses pos st0)
    (h1 : SnipOk x uses pos st1) (coef : ℕ → ℤ) {ws : List ℕ} (hni : nIn c.gates ≤ ws.length) (hw : ∀ w ∈ ws, w ≤ 48)
    (raw0 raw1 : ℕ → ℕ → ℕ → U64) (junk : ℕ → List U64) (hj : ∀ i, (junk i).length = ws.length) (ok : SnipRow → Bool)
    (subs0 subs1 : List (Bytes × SnipRow)) (hk1 : Keyed subs1) (hr0 : ∀ e ∈ subs0, SnipRowOk c ws.length e.2)
    (hr1 : ∀ e ∈ subs1, SnipRowOk c ws.length e.2) (hlen : subs1.length < 2 ^ 32) (o : Map SnipRow) (hp : o.Perm (admit ok subs1 []))
    (hne : 0 < o.length) :
    ∃ a b st0' st1', Pair (snipOp0 c coef ws raw0 junk st0 (admit ok subs0 [])) (snipOp1 c coef ws raw1 st1 (admit ok subs1 []) o)
      (a, (passing c x coef pos ws ok subs0 subs1 o.keys).card, st0') (b, st1') ∧
      a.length = ws.length ∧ b.length = ws.length ∧ (∀ y ∈ a, Canon y intModulus) ∧ (∀ y ∈ b, Canon y intModulus) ∧
      SnipOk x (uses + o.length) (pos + o.length * (c.resultZero.length + 1)) st0' ∧
      SnipOk x (uses + o.length) (pos + o.length * (c.resultZero.length + 1)) st1' ∧
      (∀ j < ws.length, (at0 a j + at0 b j : ZMod intModulus) =
        ((∑ k ∈ passing c x coef pos ws ok subs0 subs1 o.keys, keyVal ws ok subs0 subs1 j k : ℕ) : ZMod intModulus)) ∧
      ∃ (V : List Bool) (s0 s1 : List ℤ), a = accumulate ws.length (pieces ws.length o.length s0) V ∧
        b = accumulate ws.length (pieces ws.length o.length s1) V ∧ V.length = o.length ∧
        ∀ i (hi : i < o.length), (V.getD i false = true ↔ o[i].1 ∈ passing c x coef pos ws ok subs0 subs1 o.keys) := by
  classical
  set n := o.length with hn
  have hkl : o.keys.length = n := by simp [Map.keys, hn]
  have hol := order_length hp
  set R0 := rows0 c.mulGates.length (admit ok subs0 []) junk o.keys with hR0
  set R1 : List SnipRow := o.map (·.2) with hR1
  have hR0l : R0.length = n := by simp [hR0, rows0, hkl]
  have hR1l : R1.length = n := by simp [hR1, hn]
  have hrows1 : rows1 (admit ok subs1 []) (o.map (·.1)) = some R1 := by
    unfold rows1
    have := optAll_spec ((o.map (·.1)).map fun k => List.lookup k (admit ok subs1 [])) (fun i => R1.getD i ⟨[], zeroPacket 0⟩) ?_
    · rw [this]
      congr 1
      apply List.ext_getElem
      · simp [hR1]
      · intro i h1' h2'
        simp [List.getD_eq_getElem?_getD, List.getElem?_eq_getElem h2']
    · intro i hi
      have hi : i < o.length := by simpa using hi
      have he : o[i] ∈ o := List.getElem_mem hi
      have := lookup_of_mem (C34_keys_once ok subs1) (hp.mem_iff.1 he)
      simp only [List.map_map, List.getElem?_map, List.getElem?_eq_getElem hi, Option.map_some, Function.comp, hR1,
        List.getD_eq_getElem?_getD, Option.getD_some]
      exact congrArg some this
  have ok0 : ∀ r ∈ R0, SnipRowOk c ws.length r := by
    intro r hr
    rw [List.mem_iff_getElem] at hr
    obtain ⟨i, hi, rfl⟩ := hr
    simp only [hR0, rows0, List.getElem_mapIdx]
    split
    · rename_i r hr
      rw [C34_first_admissible] at hr
      exact hr0 _ (firstOf_mem hr)
    · exact ⟨hj i, zeroPacket_ok c⟩
  have ok1 : ∀ r ∈ R1, SnipRowOk c ws.length r := by
    intro r hr
    obtain ⟨e, he, rfl⟩ := List.mem_map.1 hr
    exact hr1 _ (firstOf_mem (order_lookup hp he))
  have flat : ∀ R : List SnipRow, R.length = n → (∀ r ∈ R, SnipRowOk c ws.length r) → (R.flatMap (·.vals)).length = n * ws.length ∧
      ∀ i < n, ∀ j < ws.length, entry (R.flatMap (·.vals)) (i * ws.length + j) = (R.getD i ⟨[], zeroPacket 0⟩).vals.getD j 0#64 := by
    intro R hl hR
    have hm : ∀ l ∈ R.map (·.vals), l.length = ws.length := by
      intro l hl'; obtain ⟨r, hr, rfl⟩ := List.mem_map.1 hl'; exact (hR r hr).vals
    refine ⟨?_, fun i hi j hj' => ?_⟩
    · rw [List.flatMap, length_flatten_const _ _ hm]; simp [hl]
    · rw [entry, List.flatMap, getD_flatten _ _ hm i j hj' (by simpa [hl] using hi)]
      simp [List.getD_eq_getElem?_getD, hl, hi]
  obtain ⟨f0l, f0e⟩ := flat R0 hR0l ok0
  obtain ⟨f1l, f1e⟩ := flat R1 hR1l ok1
  obtain ⟨s0, s1, hconv, s0l, s1l, s0c, s1c, hsum⟩ := shareConvert_pair goodModulus (by decide) raw0 raw1 n ws.length ws
    (R0.flatMap (·.vals)) (R1.flatMap (·.vals)) f0l f1l rfl hw
  have hsumF : ∀ i < n, ∀ j < ws.length, (at0 s0 (i * ws.length + j) + at0 s1 (i * ws.length + j) : ZMod intModulus) =
      ((recVal ws (R0.getD i ⟨[], zeroPacket 0⟩) (R1.getD i ⟨[], zeroPacket 0⟩) j : ℕ) : ZMod intModulus) := by
    intro i hi j hj'
    have := (ZMod.intCast_eq_intCast_iff _ _ _).2 (hsum i hi j hj')
    rw [f0e i hi j hj', f1e i hi j hj'] at this
    push_cast at this
    simp only [at0, recVal]
    push_cast
    exact this
  obtain ⟨vs, st0', st1', hval, hs0', hs1', hvl, hv⟩ := validate_pair hc h0 h1 coef hni hne (pks0 := R0.map (·.packet))
    (pks1 := R1.map (·.packet)) (by simpa using hR0l) (by simpa using hR1l)
    (by intro k hk; obtain ⟨r, hr, rfl⟩ := List.mem_map.1 hk; exact (ok0 r hr).pk)
    (by intro k hk; obtain ⟨r, hr, rfl⟩ := List.mem_map.1 hk; exact (ok1 r hr).pk) s0l s1l
  set G := passing c x coef pos ws ok subs0 subs1 o.keys with hG
  set V := List.zipWith (· && ·) (matched (admit ok subs0 []) o.keys) vs with hV
  have hVl : V.length = n := by simp [hV, matched_length, hkl, hvl]
  have hnd := order_nodup hp
  -- the verdict on row i
  have hVi : ∀ i (hi : i < o.length), V.getD i false = decide (o[i].1 ∈ G) := by
    intro i hi
    have hki : o.keys[i]'(by rw [hkl]; exact hi) = o[i].1 := by simp [Map.keys]
    have hidx : o.keys.idxOf o[i].1 = i := by
      rw [← hki]; exact hnd.idxOf_getElem i _
    have hR1i : R1[i]? = some o[i].2 := by simp [hR1, hi]
    have hf1 : firstOf ok subs1 o[i].1 = some o[i].2 := order_lookup hp (List.getElem_mem hi)
    have hmem : o[i].1 ∈ G ↔ Passes c x ws ok subs0 subs1 (coefs coef pos (c.resultZero.length + 1) i) o[i].1 := by
      rw [hG, passing, Finset.mem_filter, hidx, ← bothKeys_eq ok subs0 subs1 o hp, Finset.mem_filter, List.mem_toFinset]
      constructor
      · exact fun h => h.2
      · intro h
        refine ⟨⟨List.mem_map.2 ⟨o[i], List.getElem_mem hi, rfl⟩, ?_⟩, h⟩
        obtain ⟨r0, r1, e0, -⟩ := h
        rw [C34_first_admissible, e0]; rfl
    have hVi' : V.getD i false = ((List.lookup o[i].1 (admit ok subs0 [])).isSome && vs.getD i false) := by
      rw [hV, List.getD_eq_getElem?_getD, List.getElem?_zipWith, List.getD_eq_getElem?_getD,
        List.getElem?_eq_getElem (by rw [matched_length, hkl]; exact hi), List.getElem?_eq_getElem (by omega)]
      simp only [Option.getD_some, matched, List.getElem_map, hki]
    rw [hVi', C34_first_admissible]
    rcases hf0 : firstOf ok subs0 o[i].1 with _ | r0
    · have : ¬ o[i].1 ∈ G := by
        rw [hmem]; rintro ⟨r0, r1, e0, -⟩; rw [hf0] at e0; cases e0
      simp [this]
    · have hR0i : R0[i]? = some r0 := by
        have hl0 : List.lookup o[i].1 (admit ok subs0 []) = some r0 := by rw [C34_first_admissible, hf0]
        rw [List.getElem?_eq_getElem (by omega)]
        simp only [hR0, rows0, List.getElem_mapIdx, hki, hl0]
      have hacc := hv i hi r0.packet o[i].2.packet (by simp [hR0i]) (by simp [hR1i]) (recIn ws r0 o[i].2) (by simp [recIn]) (by
        intro j hj'
        rw [hsumF i hi j hj']
        simp [at0, recIn, List.getD_eq_getElem?_getD, hj', hR0i, hR1i])
      simp only [Option.isSome_some, Bool.true_and]
      rw [Bool.eq_iff_iff, decide_eq_true_iff, hacc, hmem]
      constructor
      · intro h; exact ⟨r0, o[i].2, hf0, hf1, h⟩
      · rintro ⟨r0', r1', e0, e1, h⟩
        rw [hf0] at e0; cases e0
        rw [hf1] at e1; cases e1
        exact h
  have hGsub : G ⊆ bothKeys ok subs0 subs1 := Finset.filter_subset _ _
  -- sums over the rows are sums over the keys
  have hsumG : ∀ {M : Type} [AddCommMonoid M] (F : Bytes → M) (g : ℕ → M), (∀ i (hi : i < o.length), g i = F o[i].1) →
      ∑ i ∈ Finset.range n, (if V.getD i false then g i else 0) = ∑ k ∈ G, F k := by
    intro M _ F g hg
    have e1 : ∑ i ∈ Finset.range o.length, (if V.getD i false then g i else 0) =
        (o.mapIdx fun _ e => if e.1 ∈ G then F e.1 else 0).sum := by
      refine sum_range_list o _ _ fun i a ha => ?_
      obtain ⟨hi, rfl⟩ := List.getElem?_eq_some_iff.1 ha
      rw [hVi i hi, hg i hi]
      by_cases hb : o[i].1 ∈ G <;> simp [hb]
    have e2 : (o.mapIdx fun _ e => if e.1 ∈ G then F e.1 else 0) =
        o.map fun e => if (List.lookup e.1 (admit ok subs0 [])).isSome then (if e.1 ∈ G then F e.1 else 0) else 0 := by
      apply List.ext_getElem
      · simp
      · intro i hi1 hi2
        have hi : i < o.length := by simpa using hi2
        simp only [List.getElem_mapIdx, List.getElem_map]
        by_cases hb : o[i].1 ∈ G
        · have := hGsub hb
          rw [← bothKeys_eq ok subs0 subs1 o hp, Finset.mem_filter] at this
          rw [if_pos hb, if_pos this.2]
        · simp only [if_neg hb, ite_self]
    rw [e1, e2, sum_order ok subs0 subs1 o hp (fun k _ => if k ∈ G then F k else 0), ← Finset.sum_filter]
    congr 1
    ext k
    rw [Finset.mem_filter]
    exact ⟨fun h => h.2, fun h => ⟨hGsub h, h⟩⟩
  have hcard : numTrue V = G.card := by
    have h1' : numTrue V = ∑ i ∈ Finset.range n, if V.getD i false then 1 else 0 := by
      have := sum_range_list V (fun _ b => if b then 1 else 0) (fun i => if V.getD i false then 1 else 0) (by
        intro i a ha; simp [List.getD_eq_getElem?_getD, ha])
      rw [hVl] at this
      rw [this]
      unfold numTrue
      clear this
      generalize V = V
      induction V with
      | nil => rfl
      | cons b V ih =>
        rw [List.mapIdx_cons, List.sum_cons, ← ih]
        cases b <;> simp
        omega
    rw [h1', hsumG (fun _ => 1) (fun _ => 1) (fun _ _ => rfl)]
    simp
  have hVV : List.zipWith (· && ·) V vs = V := by
    apply List.ext_getElem
    · simp [hVl, hvl]
    · intro i hi1 hi2
      simp [hV]
  obtain ⟨A1, A2, A3⟩ := accumulate_spec (pieces ws.length n s0) V (by rw [pieces_length, hVl]) (pieces_mem _ _ _ s0l)
  obtain ⟨B1, B2, B3⟩ := accumulate_spec (pieces ws.length n s1) V (by rw [pieces_length, hVl]) (pieces_mem _ _ _ s1l)
  refine ⟨accumulate ws.length (pieces ws.length n s0) V, accumulate ws.length (pieces ws.length n s1) V, st0', st1', ?_, A1, B1, A2, B2,
    hs0', hs1', ?_, V, s0, s1, rfl, rfl, hVl, fun i hi => by rw [hVi i hi, decide_eq_true_iff]⟩
  · unfold snipOp0 snipOp1
    refine (listen_pair o.keys (order_keyed hp hk1) (by rw [hkl]; omega)).bind ?_
    rw [hrows1]
    simp only [Proc.ofOption, Proc.bind]
    rw [hkl, ← hR0, ← hn]
    refine hconv.bind (hval.bind ?_)
    have hrb := reads_bools V
    rw [hVl] at hrb
    refine (Pair.send01 hrb).bind ?_
    simp only [← hV, hVV, hcard]
    exact Pair.ret _ _
  · intro j hj'
    rw [A3 j hj', B3 j hj', pieces_length, pieces_length, ← Finset.sum_add_distrib]
    have hgd : ∀ i < n, ∀ s : List ℤ, at0 ((pieces ws.length n s).getD i []) j = at0 s (i * ws.length + j) :=
      fun i hi s => getD_pieces ws.length n s i j hi hj' 0
    have : ∀ i ∈ Finset.range n, ((if V.getD i false then (at0 ((pieces ws.length n s0).getD i []) j : ZMod intModulus) else 0) +
        if V.getD i false then (at0 ((pieces ws.length n s1).getD i []) j : ZMod intModulus) else 0) =
        if V.getD i false then
          ((keyVal ws ok subs0 subs1 j (o.keys.getD i []) : ℕ) : ZMod intModulus) else 0 := by
      intro i hi
      have hi := Finset.mem_range.1 hi
      split_ifs with hb
      · rw [hgd i hi, hgd i hi, hsumF i hi j hj']
        have hb' := hVi i hi
        rw [hb] at hb'
        have hmem : o[i].1 ∈ G := by simpa using hb'.symm
        have hb2 := hGsub hmem
        rw [bothKeys, Finset.mem_filter] at hb2
        obtain ⟨r0, hr0'⟩ := Option.isSome_iff_exists.1 hb2.2.1
        have hf1 : firstOf ok subs1 o[i].1 = some o[i].2 := order_lookup hp (List.getElem_mem hi)
        have hki : o.keys.getD i [] = o[i].1 := by
          rw [List.getD_eq_getElem?_getD, List.getElem?_eq_getElem (by omega)]; simp [Map.keys]
        have hl0 : List.lookup o[i].1 (admit ok subs0 []) = some r0 := by rw [C34_first_admissible, hr0']
        have hR0i : R0[i]? = some r0 := by
          have hki' : o.keys[i]'(by rw [hkl]; exact hi) = o[i].1 := by simp [Map.keys]
          rw [List.getElem?_eq_getElem (by omega)]
          simp only [hR0, rows0, List.getElem_mapIdx, hki', hl0]
        have hR1i : R1[i]? = some o[i].2 := by simp only [hR1, List.getElem?_map, List.getElem?_eq_getElem hi, Option.map_some]
        rw [hki, keyVal, hr0', hf1, List.getD_eq_getElem?_getD, hR0i, List.getD_eq_getElem?_getD, hR1i]
        rfl
      · simp
    rw [Finset.sum_congr rfl this]
    rw [hsumG (fun k => ((keyVal ws ok subs0 subs1 j k : ℕ) : ZMod intModulus)) _ (by
      intro i hi
      rw [List.getD_eq_getElem?_getD, List.getElem?_eq_getElem (by rw [hkl]; exact hi)]
      simp [Map.keys])]
    push_cast
    rfl

end Verif

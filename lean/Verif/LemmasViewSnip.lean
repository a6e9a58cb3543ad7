import Verif.LemmasVarOp
import Verif.PropsZk

/-! # What the servers see in the part common to `var_op` and `linreg_op` -/

namespace Verif

/-! ### Share conversion -/

/-- The field modulus as the word passed to the OT sums. -/
abbrev modW : U64 := BitVec.ofNat 64 intModulus

/-- The rows at the sender. -/
def otRows (raw : ℕ → ℕ → ℕ → U64) (R : List SnipRow) : List IntRow := R.zipIdx.map fun q => ⟨q.1.vals, true, raw q.2⟩

/-- The words that server 1 gets. -/
def convWords (ws : List ℕ) (raw : ℕ → ℕ → ℕ → U64) (R0 R1 : List SnipRow) : List U64 :=
  otChoose ((otRows raw R0).flatMap fun r => (senderRow modW ws r).1) (R1.flatMap fun r => rowBits r.vals ws)

/-- The shares of server 0. -/
def conv0 (ws : List ℕ) (raw : ℕ → ℕ → ℕ → U64) (R0 : List SnipRow) : List ℤ :=
  ((otRows raw R0).map fun r => (senderRow modW ws r).2).flatten.map fun w => (w.toNat : ℤ)

/-- The shares of server 1, from the words it got. -/
def conv1 (ws : List ℕ) (n : ℕ) (words : List U64) : List ℤ := (recvRows modW ws n words).flatten.map fun w => (w.toNat : ℤ)

theorem pieces_flatMap_vals (R : List SnipRow) (k : ℕ) (h : ∀ r ∈ R, r.vals.length = k) :
    pieces k R.length (R.flatMap (·.vals)) = R.map (·.vals) := by
  induction R with
  | nil => rfl
  | cons r R ih =>
    have h0 := h r (List.mem_cons_self ..)
    rw [List.length_cons, pieces, List.flatMap_cons, List.take_left' h0, List.drop_left' h0,
      ih fun r hr => h r (List.mem_cons_of_mem _ hr), List.map_cons]

theorem flat_rows {c : Circuit} {nv n : ℕ} {R : List SnipRow} (hl : R.length = n) (hR : ∀ r ∈ R, SnipRowOk c nv r) :
    (R.flatMap (·.vals)).length = n * nv ∧
      ∀ i < n, ∀ j < nv, entry (R.flatMap (·.vals)) (i * nv + j) = (R.getD i ⟨[], zeroPacket 0⟩).vals.getD j 0#64 := by
  have hm : ∀ l ∈ R.map (·.vals), l.length = nv := by
    intro l hl'; obtain ⟨r, hr, rfl⟩ := List.mem_map.1 hl'; exact (hR r hr).vals
  refine ⟨?_, fun i hi j hj' => ?_⟩
  · rw [List.flatMap, length_flatten_const _ _ hm]; simp [hl]
  · rw [entry, List.flatMap, getD_flatten _ _ hm i j hj' (by simpa [hl] using hi)]
    simp [List.getD_eq_getElem?_getD, hl, hi]

theorem convert_view {c : Circuit} {ws : List ℕ} (hw : ∀ w ∈ ws, w ≤ 48) (raw0 raw1 : ℕ → ℕ → ℕ → U64) {n : ℕ} {R0 R1 : List SnipRow}
    (hl0 : R0.length = n) (hl1 : R1.length = n) (h0 : ∀ r ∈ R0, SnipRowOk c ws.length r) (h1 : ∀ r ∈ R1, SnipRowOk c ws.length r) :
    PairW (shareConvert intModulus false raw0 n ws.length ws (R0.flatMap (·.vals)))
      (shareConvert intModulus true raw1 n ws.length ws (R1.flatMap (·.vals))) (conv0 ws raw0 R0) (conv1 ws n (convWords ws raw0 R0 R1))
      [] (seenWords (convWords ws raw0 R0 R1)) ∧
    (conv0 ws raw0 R0).length = n * ws.length ∧ (conv1 ws n (convWords ws raw0 R0 R1)).length = n * ws.length ∧
    (∀ a ∈ conv0 ws raw0 R0, Canon a intModulus) ∧ (∀ a ∈ conv1 ws n (convWords ws raw0 R0 R1), Canon a intModulus) ∧
    ∀ i < n, ∀ j < ws.length, (at0 (conv0 ws raw0 R0) (i * ws.length + j) +
      at0 (conv1 ws n (convWords ws raw0 R0 R1)) (i * ws.length + j) : ZMod intModulus) =
      ((recVal ws (R0.getD i ⟨[], zeroPacket 0⟩) (R1.getD i ⟨[], zeroPacket 0⟩) j : ℕ) : ZMod intModulus) := by
  obtain ⟨f0l, f0e⟩ := flat_rows hl0 h0
  obtain ⟨f1l, f1e⟩ := flat_rows hl1 h1
  have p0 : pieces ws.length n (R0.flatMap (·.vals)) = R0.map (·.vals) := by
    rw [← hl0]; exact pieces_flatMap_vals _ _ fun r hr => (h0 r hr).vals
  have p1 : pieces ws.length n (R1.flatMap (·.vals)) = R1.map (·.vals) := by
    rw [← hl1]; exact pieces_flatMap_vals _ _ fun r hr => (h1 r hr).vals
  have hPW : PairW (shareConvert intModulus false raw0 n ws.length ws (R0.flatMap (·.vals)))
      (shareConvert intModulus true raw1 n ws.length ws (R1.flatMap (·.vals))) (conv0 ws raw0 R0) (conv1 ws n (convWords ws raw0 R0 R1))
      [] (seenWords (convWords ws raw0 R0 R1)) := by
    have hrl : (otRows raw0 R0).length = (R1.map (·.vals)).length := by simp [otRows, hl0, hl1]
    have hx : ∀ r ∈ otRows raw0 R0, r.vals.length = ws.length := by
      intro r hr
      obtain ⟨q, hq, rfl⟩ := List.mem_map.1 hr
      exact (h0 _ (List.fst_mem_of_mem_zipIdx hq)).vals
    have hy : ∀ y ∈ R1.map (·.vals), y.length = ws.length := by
      intro y hy
      obtain ⟨r, hr, rfl⟩ := List.mem_map.1 hy
      exact (h1 r hr).vals
    have h := intsum_pairW modW false (otRows raw0 R0) (R1.map (·.vals)) ws hrl hx hy fun w h => (hw w h).trans (by norm_num)
    unfold shareConvert
    rw [if_neg (by simp [f0l]), if_neg (by simp [f1l]), p0, p1]
    have e : ((R0.map (·.vals)).zipIdx.map fun q => (⟨q.1, true, raw0 q.2⟩ : IntRow)) = otRows raw0 R0 := by
      simp [otRows, List.zipIdx_map, Function.comp_def]
    simp only [Bool.false_eq_true, if_false, if_true, e]
    refine (h.bind (Q0 := fun r => .ret (r.flatten.map fun w => (w.toNat : ℤ))) (Q1 := fun r => .ret (r.flatten.map fun w => (w.toNat : ℤ)))
      (PairW.ret _ _)).cast rfl ?_ rfl ?_
    · simp only [conv1, convWords, List.length_map, hl1, List.flatMap_map]
    · simp only [convWords, List.append_nil, List.flatMap_map]
  refine ⟨hPW, ?_⟩
  obtain ⟨s0, s1, hconv, s0l, s1l, s0c, s1c, hsum⟩ := shareConvert_pair goodModulus (by decide) raw0 raw1 n ws.length ws
    (R0.flatMap (·.vals)) (R1.flatMap (·.vals)) f0l f1l rfl hw
  obtain ⟨rfl, rfl⟩ := (Pair.always hconv).unique (Pair.always hPW.toPair)
  refine ⟨s0l, s1l, s0c, s1c, fun i hi j hj => ?_⟩
  have := (ZMod.intCast_eq_intCast_iff _ _ _).2 (hsum i hi j hj)
  rw [f0e i hi j hj, f1e i hi j hj] at this
  push_cast at this
  simp only [at0, recVal]
  push_cast
  exact this

/-! ### The whole operation up to the sums -/

theorem rows1_eq {ok : SnipRow → Bool} {subs1 : List (Bytes × SnipRow)} {o : Map SnipRow} (hp : o.Perm (admit ok subs1 [])) :
    rows1 (admit ok subs1 []) (o.map (·.1)) = some (o.map (·.2)) := by
  unfold rows1
  have := optAll_spec ((o.map (·.1)).map fun k => List.lookup k (admit ok subs1 [])) (fun i => (o.map (·.2)).getD i ⟨[], zeroPacket 0⟩) ?_
  · rw [this]
    congr 1
    apply List.ext_getElem
    · simp
    · intro i h1' h2'
      simp only [List.length_map] at h2'
      simp [List.getD_eq_getElem?_getD, List.getElem?_eq_getElem h2']
  · intro i hi
    have hi : i < o.length := by simpa using hi
    have he : o[i] ∈ o := List.getElem_mem hi
    have := lookup_of_mem (C34_keys_once ok subs1) (hp.mem_iff.1 he)
    simp only [List.map_map, List.getElem?_map, List.getElem?_eq_getElem hi, Option.map_some, Function.comp,
      List.getD_eq_getElem?_getD, Option.getD_some]
    exact congrArg some this

theorem rows0_ok {c : Circuit} {nv : ℕ} {junk : ℕ → List U64} (hj : ∀ i, (junk i).length = nv) {ok : SnipRow → Bool}
    {subs0 : List (Bytes × SnipRow)} (hr0 : ∀ e ∈ subs0, SnipRowOk c nv e.2) (ks : List Bytes) :
    ∀ r ∈ rows0 c.mulGates.length (admit ok subs0 []) junk ks, SnipRowOk c nv r := by
  intro r hr
  rw [List.mem_iff_getElem] at hr
  obtain ⟨i, hi, rfl⟩ := hr
  simp only [rows0, List.getElem_mapIdx]
  split
  · rename_i r hr
    rw [C34_first_admissible] at hr
    exact hr0 _ (firstOf_mem hr)
  · exact ⟨hj i, zeroPacket_ok c⟩

theorem rows1_ok {c : Circuit} {nv : ℕ} {ok : SnipRow → Bool} {subs1 : List (Bytes × SnipRow)} (hr1 : ∀ e ∈ subs1, SnipRowOk c nv e.2)
    {o : Map SnipRow} (hp : o.Perm (admit ok subs1 [])) : ∀ r ∈ o.map (·.2), SnipRowOk c nv r := by
  intro r hr
  obtain ⟨e, he, rfl⟩ := List.mem_map.1 hr
  exact hr1 _ (firstOf_mem (order_lookup hp he))

/-- The verdicts combined with the matching of keys. -/
def combined (m : Map SnipRow) (ks : List Bytes) (n : ℕ) (O0 O1 : ℕ → ℤ) : List Bool :=
  List.zipWith (· && ·) (matched m ks) (verdicts n O0 O1)

/-- `snipOp0` and `snipOp1` with all intermediate values and what the servers see. -/
theorem snipOp_view {c : Circuit} (hc : CircOk c) {x : ℤ} {uses pos : ℕ} {st0 st1 : SnipState} (h0 : SnipOk x uses pos st0)
    (h1 : SnipOk x uses pos st1) (coef : ℕ → ℤ) {ws : List ℕ} (hni : nIn c.gates ≤ ws.length) (hw : ∀ w ∈ ws, w ≤ 48)
    (raw0 raw1 : ℕ → ℕ → ℕ → U64) (junk : ℕ → List U64) (hj : ∀ i, (junk i).length = ws.length) (ok : SnipRow → Bool)
    (subs0 subs1 : List (Bytes × SnipRow)) (hk1 : Keyed subs1) (hr0 : ∀ e ∈ subs0, SnipRowOk c ws.length e.2)
    (hr1 : ∀ e ∈ subs1, SnipRowOk c ws.length e.2) (hlen : subs1.length < 2 ^ 32) (o : Map SnipRow) (hp : o.Perm (admit ok subs1 []))
    (hne : 0 < o.length) (R0 : List SnipRow) (hR0 : R0 = rows0 c.mulGates.length (admit ok subs0 []) junk o.keys) :
    ∃ pre t l, RootCalls (npow2 c.mulGates.length :: l) t ∧ checkerPre intModulus t (npow2 c.mulGates.length) x = some pre ∧
    ∃ (K0 K1 : ℕ → Checker) (O0 O1 : ℕ → ℤ) (st0' st1' : SnipState),
      PairW (snipOp0 c coef ws raw0 junk st0 (admit ok subs0 [])) (snipOp1 c coef ws raw1 st1 (admit ok subs1 []) o)
        (accumulate ws.length (pieces ws.length o.length (conv0 ws raw0 R0)) (combined (admit ok subs0 []) o.keys o.length O0 O1),
          numTrue (combined (admit ok subs0 []) o.keys o.length O0 O1), st0')
        (accumulate ws.length (pieces ws.length o.length (conv1 ws o.length (convWords ws raw0 R0 (o.map (·.2)))))
          (combined (admit ok subs0 []) o.keys o.length O0 O1), st1')
        (seenBytes (encSize (BitVec.ofNat 64 o.keys.length)) ++ seenKeys o.keys ++ checkSeen o.length (fun i => (K1 i).corShare intModulus) O1)
        (seenWords (convWords ws raw0 R0 (o.map (·.2))) ++ checkSeen o.length (fun i => (K0 i).corShare intModulus) O0 ++
          seenBytes (encBools (combined (admit ok subs0 []) o.keys o.length O0 O1))) ∧
      ∀ i < o.length, ∃ r0 r1, R0[i]? = some r0 ∧ (o.map (·.2))[i]? = some r1 ∧
        RowRun c pre (coefs coef pos (c.resultZero.length + 1) i) r0.packet r1.packet
          ((pieces ws.length o.length (conv0 ws raw0 R0)).getD i [])
          ((pieces ws.length o.length (conv1 ws o.length (convWords ws raw0 R0 (o.map (·.2))))).getD i []) (K0 i) (K1 i) (O0 i) (O1 i) := by
  set n := o.length with hn
  have hkl : o.keys.length = n := by simp [Map.keys, hn]
  have hol := order_length hp
  have hR0l : R0.length = n := by rw [hR0]; simp [rows0, hkl]
  have hR1l : (o.map (·.2)).length = n := by simp [hn]
  have ok0 : ∀ r ∈ R0, SnipRowOk c ws.length r := by rw [hR0]; exact rows0_ok hj hr0 _
  have ok1 := rows1_ok hr1 hp
  obtain ⟨hconv, s0l, s1l, s0c, s1c, hsum⟩ := convert_view hw raw0 raw1 hR0l hR1l ok0 ok1
  obtain ⟨pre, t, l, hrc, hpre, K0, K1, O0, O1, st0', st1', hval, -, -, hrow⟩ := validate_view hc h0 h1 coef hni hne (pks0 := R0.map (·.packet))
    (pks1 := (o.map (·.2)).map (·.packet)) (by simpa using hR0l) (by simpa using hR1l)
    (by intro k hk; obtain ⟨r, hr, rfl⟩ := List.mem_map.1 hk; exact (ok0 r hr).pk)
    (by intro k hk; obtain ⟨r, hr, rfl⟩ := List.mem_map.1 hk; exact (ok1 r hr).pk) s0l s1l
  refine ⟨pre, t, l, hrc, hpre, K0, K1, O0, O1, st0', st1', ?_, ?_⟩
  · have hvl : (verdicts n O0 O1).length = n := by simp [verdicts]
    have hVl : (combined (admit ok subs0 []) o.keys n O0 O1).length = n := by simp [combined, matched_length, hkl, hvl]
    have hVV : List.zipWith (· && ·) (combined (admit ok subs0 []) o.keys n O0 O1) (verdicts n O0 O1) =
        combined (admit ok subs0 []) o.keys n O0 O1 := by
      apply List.ext_getElem
      · simp [hVl, hvl]
      · intro i hi1 hi2
        simp [combined]
    unfold snipOp0 snipOp1
    refine ((listen_pairW o.keys (order_keyed hp hk1) (by rw [hkl]; omega)).bind (w0 := checkSeen n (fun i => (K1 i).corShare intModulus) O1)
      (w1 := seenWords (convWords ws raw0 R0 (o.map (·.2))) ++ (checkSeen n (fun i => (K0 i).corShare intModulus) O0 ++
        seenBytes (encBools (combined (admit ok subs0 []) o.keys n O0 O1)))) ?_).cast rfl rfl rfl (by simp)
    rw [rows1_eq hp]
    simp only [Proc.ofOption, Proc.bind]
    rw [hkl, ← hR0, ← hn]
    refine (hconv.bind (w0 := checkSeen n (fun i => (K1 i).corShare intModulus) O1) (hval.bind (w0 := []) ?_ |>.cast rfl rfl (List.append_nil _) rfl)).cast
      rfl rfl (List.nil_append _) rfl
    have hrb := reads_bools (combined (admit ok subs0 []) o.keys n O0 O1)
    rw [hVl] at hrb
    refine ((PairW.send01 hrb).bind (w0 := []) (w1 := []) ?_).cast rfl rfl rfl (List.append_nil _)
    rw [hVV]
    exact PairW.ret _ _
  · intro i hi
    obtain ⟨a0, a1, g0, g1, hr, -⟩ := hrow i hi
    rw [List.getElem?_map, Option.map_eq_some_iff] at g0 g1
    obtain ⟨r0, g0, rfl⟩ := g0
    obtain ⟨r1, g1, rfl⟩ := g1
    exact ⟨r0, r1, g0, g1, hr⟩

end Verif

import Verif.LemmasInvalidVar
import Verif.PropsInvalid

/-!
# C80, continued: the debugging client for VAR and STDDEV
-/

namespace Verif

/-- The clients not marked `(invalid)` by `var_op_invalid` (client.cpp:866-879). -/
def countsC (i : ℕ) : Bool := !(i ≤ 9 || i == 11 || i == 13)

theorem countsC_iff (i : ℕ) : countsC i = true ↔ 9 < i ∧ i ≠ 11 ∧ i ≠ 13 := by
  simp [countsC, and_assoc]

theorem countsC_false (i : ℕ) : countsC i = false ↔ i ≤ 9 ∨ i = 11 ∨ i = 13 := by
  rw [← Bool.not_eq_true, countsC_iff]; omega

/-- The clients accepted: those not marked invalid, and client 2 if the word drawn for it happens to be in range. -/
def acceptedC (nbits : ℕ) (z : ℕ → U64) (i : ℕ) : Bool := countsC i || (i == 2 && decide ((z 2).toNat < 2 ^ (2 * nbits)))

theorem acceptedC_iff (nbits : ℕ) (z : ℕ → U64) (i : ℕ) : acceptedC nbits z i = true ↔
    (9 < i ∧ i ≠ 11 ∧ i ≠ 13) ∨ (i = 2 ∧ (z 2).toNat < 2 ^ (2 * nbits)) := by
  simp [acceptedC, countsC_iff]

/-- If the word is out of range, exactly the clients not marked invalid are accepted. -/
theorem acceptedC_eq {nbits : ℕ} {z : ℕ → U64} (h : 2 ^ (2 * nbits) ≤ (z 2).toNat) : acceptedC nbits z = countsC := by
  funext i
  rw [Bool.eq_iff_iff, acceptedC_iff, countsC_iff]
  omega

theorem accepted_held {nbits : ℕ} {z : ℕ → U64} {i : ℕ} (h : acceptedC nbits z i = true) : heldC nbits z i = true := by
  rw [acceptedC_iff] at h
  rw [heldC_iff]
  omega

/-- VAR and STDDEV: the servers answer from 24 submissions on. -/
theorem C80_threshold_var {α : Type} (n : ℕ) (a : α) :
    verdict (valid countsC n).length n a = if n = 0 ∨ 24 ≤ n then .ans a else .invalid := by
  unfold verdict
  have hs : n < 24 ∨ 24 ≤ n := by omega
  rcases hs with hs | hs
  · interval_cases n <;> simp [valid, countsC, List.range_succ]
  · obtain ⟨d, rfl⟩ := Nat.exists_eq_add_of_le hs
    have : (valid countsC 24).length = 12 := by decide
    rw [valid_tail _ _ _ (by intro i hi; rw [countsC_iff]; omega), this, if_neg (by omega), if_pos (by omega)]

/-- C80 is false of VAR and STDDEV as well: from 12 submissions on the program is undefined, and with 32 bits or more from the first one on. -/
theorem C80_false_undefined_var (fma std : Bool) (nbits : ℕ) (t : RootTables) (rand : ℕ → SnipRand) (n : ℕ) (mx : BitVec 32) (g : Prg) :
    (12 ≤ n → varInvalid fma std nbits t rand .real n mx g = none) ∧
      (∀ stale, 0 < n → 32 ≤ nbits → varInvalid fma std nbits t rand stale n mx g = none) := by
  constructor
  · intro h
    unfold varInvalid
    split
    · rfl
    dsimp only
    rw [Option.bind_eq_none_iff]
    intro rows _
    rw [badSubs_none (i := 11) (by omega) rfl]; rfl
  · intro stale h0 h
    have e : (1#64 <<< nbits : U64) * (1#64 <<< nbits) = 0#64 := by
      apply BitVec.eq_of_toNat_eq
      rw [BitVec.toNat_mul, BitVec.toNat_shiftLeft, Nat.shiftLeft_eq, ← Nat.mul_mod]
      have e1 : (1#64 : U64).toNat = 1 := rfl
      have e2 : (2 : ℕ) ^ (nbits + nbits) = 2 ^ 64 * 2 ^ (nbits + nbits - 64) := by rw [← pow_add]; congr 1; omega
      rw [e1, one_mul, ← pow_add, e2, Nat.mul_mod_right]; rfl
    unfold varInvalid
    rw [if_pos ⟨h0, e⟩]

/-! ## What the program prints -/

theorem varTotals_eq (nbits : ℕ) (r : ℕ → U64) (n : ℕ) : varTotals nbits r n =
    ((valid countsC n).foldl (fun s i => s + varReal nbits r i) 0#64,
      (valid countsC n).foldl (fun s i => s + varReal nbits r i * varReal nbits r i) 0#64, BitVec.ofNat 64 (valid countsC n).length) := by
  unfold varTotals
  rw [fold_valid countsC_false]
  have hm : ∀ i ∈ valid countsC n, 9 < i := fun i hi => ((countsC_iff i).1 (List.mem_filter.1 hi).2).1
  generalize valid countsC n = l at hm
  have : ∀ (l : List ℕ) (_ : ∀ i ∈ l, 9 < i) (a b c : U64), l.foldl (fun s i => (s.1 + varReal nbits r i, s.2.1 + varSquared nbits r i, s.2.2 + 1#64)) (a, b, c) =
      (l.foldl (fun s i => s + varReal nbits r i) a, l.foldl (fun s i => s + varReal nbits r i * varReal nbits r i) b, c + BitVec.ofNat 64 l.length) := by
    intro l
    induction l with
    | nil => intro _ a b c; simp
    | cons i l ih =>
      intro hm a b c
      have hi := hm i List.mem_cons_self
      have e : varSquared nbits r i = varReal nbits r i * varReal nbits r i := by
        unfold varSquared
        dsimp only
        rw [if_neg (by omega)]
      rw [List.foldl_cons, List.foldl_cons, List.foldl_cons, ih fun j hj => hm j (List.mem_cons_of_mem _ hj), e, List.length_cons, BitVec.add_assoc,
        Nat.add_comm l.length 1, BitVec.ofNat_add]
  rw [this l hm]
  simp

/-- The program prints what `var_op` prints for the values of the clients not marked invalid. -/
theorem varTotalsPrinted_eq (fma std : Bool) (nbits : ℕ) (r : ℕ → U64) {n : ℕ} (hn : n < 2 ^ 32) :
    varTotalsPrinted fma std (varTotals nbits r n) = varPrinted fma std ((valid countsC n).map (varReal nbits r)) := by
  have hl := valid_le countsC n
  have e : (BitVec.ofNat 64 (valid countsC n).length).toNat = (valid countsC n).length := by
    rw [BitVec.toNat_ofNat, Nat.mod_eq_of_lt (by omega)]
  have e0 : BitVec.ofNat 64 (valid countsC n).length = 0#64 ↔ (valid countsC n).length = 0 := by
    constructor
    · intro h; rw [← e, h]; rfl
    · intro h; rw [h]
  unfold varTotalsPrinted varPrinted
  rw [varTotals_eq, List.foldl_map, List.foldl_map, List.length_map]
  dsimp only
  rw [e]
  by_cases h : (valid countsC n).length = 0
  · rw [if_pos (e0.2 h), if_pos h]
  · rw [if_neg (fun h' => h (e0.1 h')), if_neg h]

/-! ## The servers -/

/-- The streams of the program, and what the servers hold: exactly the shares of the clients whose keys match and whose shares are in range. -/
theorem varInvalid_streams (fma std : Bool) {nbits : ℕ} (hb : nbits ≤ 24) {t : RootTables} {l : List ℕ} (hrc : RootCalls (2 :: l) t) {n : ℕ}
    (hn : n < 2 ^ 32) {rand : ℕ → SnipRand} (hr : ∀ i < n, ValidRand intModulus varCircuit (rand i)) (mx : BitVec 32) {g : Prg}
    (ha : Function.Injective g.aes) {stale : Stale} (hs : Harmless stale spoilC (varDraws n g).1 n (heldC nbits (varDraws n g).2.2.2)) :
    ∃ a b s0 s1, ∃ o : ℕ → BadVar, varInvalid fma std nbits t rand stale n mx g = some (encInit (initMsg (if std then 8#32 else 7#32) n mx) ++ s0,
        encInit (initMsg (if std then 8#32 else 7#32) n mx) ++ s1, varPrinted fma std ((valid countsC n).map (varReal nbits (varDraws n g).2.1))) ∧
      VarStream n s0 a ∧ VarStream n s1 b ∧
      (∀ i < n, varBad nbits t rand (varDraws n g).2.1 (varDraws n g).2.2.1 (varDraws n g).2.2.2 i = some (o i)) ∧
      b.map (·.2) = (List.range n).map (fun i => (o i).row1) ∧
      (((List.range n).filter (heldC nbits (varDraws n g).2.2.2)).map (varDraws n g).1).Nodup ∧
      (∀ i ∈ (List.range n).filter (heldC nbits (varDraws n g).2.2.2), firstOf (varFits nbits) a ((varDraws n g).1 i) = some (o i).row0 ∧
        firstOf (varFits nbits) b ((varDraws n g).1 i) = some (o i).row1) ∧
      bothKeys (varFits nbits) a b = (((List.range n).filter (heldC nbits (varDraws n g).2.2.2)).map (varDraws n g).1).toFinset := by
  set key := (varDraws n g).1 with hkey
  set r := (varDraws n g).2.1 with hr'
  set s := (varDraws n g).2.2.1 with hs'
  set z := (varDraws n g).2.2.2 with hz
  set o : ℕ → BadVar := fun i => (varBad nbits t rand r s z i).getD default with ho
  have hbad : ∀ i < n, varBad nbits t rand r s z i = some (o i) := by
    intro i hi
    obtain ⟨pk, w, b, -, -, h⟩ := varBad_some hb hrc r s z (hr i hi)
    simp only [ho, h, Option.getD_some]
  have hrow : ∀ i < n, ∃ pk w, sharePolynomials intModulus varCircuit w t (rand i) = some pk ∧
      o i = ⟨varReal nbits r i, varSquared nbits r i, ⟨[varShare0 nbits s i, varSquare0 nbits z i], (tamper i pk).1⟩,
        ⟨[varReal nbits r i ^^^ varShare0 nbits s i, varSquared nbits r i ^^^ varSquare0 nbits z i], (tamper i pk).2⟩⟩ := by
    intro i hi
    obtain ⟨pk, w, b, -, hpk, h⟩ := varBad_some hb hrc r s z (hr i hi)
    rw [hbad i hi] at h
    exact ⟨pk, w, hpk, Option.some.inj h⟩
  have hrows : optAll ((List.range n).map (varBad nbits t rand r s z)) = some ((List.range n).map o) := optAll_range hbad
  have hget : ∀ i < n, ((List.range n).map o).getD i default = o i := by
    intro i hi
    rw [List.getD_eq_getElem _ _ (by simpa using hi)]
    simp
  obtain ⟨a, b, ea, eb, la, lb, ka, kb, ra, rb, hnd, hf, hbk⟩ := spoiled_keys (ok := varFits nbits) (sh0 := fun i => (((List.range n).map o).getD i default).row0)
    (sh1 := fun i => (((List.range n).map o).getD i default).row1) (key := key)
    (good := heldC nbits z) (fun i => C54_length _) (C80_keys_distinct ha (by omega)) (fun i => misspell_ne _ _) hs (by decide)
    (by
      intro i hi
      obtain ⟨pk, w, -, e⟩ := hrow i hi
      rw [heldC_iff, hget i hi, e]
      dsimp only
      rw [varRow_fits hb]
      simp only [spoilC]
      tauto)
  have hsz : ∀ (sub : List (Bytes × SnipRow)) (F : BadVar → SnipRow), (F = BadVar.row0 ∨ F = BadVar.row1) → Keyed sub →
      sub.map (·.2) = (List.range n).map (fun i => F (((List.range n).map o).getD i default)) →
      ∀ e ∈ sub, e.1.length = pkLength ∧ e.2.vals.length = 2 ∧ PacketOk varCircuit e.2.packet ∧ ∀ y ∈ e.2.packet.all, Fits y := by
    intro sub F hF hk hm e he
    have : e.2 ∈ sub.map (·.2) := List.mem_map.2 ⟨e, he, rfl⟩
    rw [hm] at this
    obtain ⟨i, hi, h⟩ := List.mem_map.1 this
    have hi := List.mem_range.1 hi
    obtain ⟨pk, w, hpk, e'⟩ := hrow i hi
    obtain ⟨z0, z1⟩ := tamper_sizes (hr i hi) hpk i
    rw [hget i hi, e'] at h
    rw [← h]
    rcases hF with rfl | rfl
    · exact ⟨hk e he, rfl, z0.1, z0.2⟩
    · exact ⟨hk e he, rfl, z1.1, z1.2⟩
  obtain ⟨s0, eb0, rd0⟩ := var_stream (hsz a _ (.inl rfl) ka ra)
  obtain ⟨s1, eb1, rd1⟩ := var_stream (hsz b _ (.inr rfl) kb rb)
  have v0 : VarStream n s0 a := ⟨[], by have := rd0 []; rwa [List.append_nil, la] at this⟩
  have v1 : VarStream n s1 b := ⟨[], by have := rd1 []; rwa [List.append_nil, lb] at this⟩
  have hmx : ¬ (0 < n ∧ (1#64 <<< nbits : U64) * (1#64 <<< nbits) = 0#64) := by
    rintro ⟨-, h⟩
    have h1 := sq_shl (show nbits ≤ 31 by omega)
    rw [h] at h1
    have : 0 < 2 ^ (2 * nbits) := by positivity
    have e0 : (0#64 : U64).toNat = 0 := rfl
    omega
  refine ⟨a, b, s0, s1, o, ?_, v0, v1, hbad, ?_, hnd, ?_, hbk⟩
  · unfold varInvalid
    rw [if_neg hmx]
    simp only [← hkey, ← hr', ← hs', ← hz, hrows, Option.bind_some, ea, eb, eb0, eb1, Option.map_some, varTotalsPrinted_eq fma std nbits r hn]
  · rw [rb]
    exact List.map_congr_left fun i hi => by rw [hget i (List.mem_range.1 hi)]
  · intro i hi
    have := hf i hi
    rwa [hget i (List.mem_range.1 (List.mem_filter.1 hi).1)] at this

/-- C80 for VAR and STDDEV (1 to 24 bits, at least four submissions), provided that what the client finds in the released memory is harmless and that the
changes made for clients 6 and 8 do change something: the program is defined, and for all but `5 n p^(2M)` of the `p^(2M+1)` choices of the check point and
of the coefficients (`M` submissions held by server 1), the servers answer from the values of the clients they accept, for every schedule. -/
theorem C80_var_partial (c : StoreCfg) {g0 g1 : StoreRng} (hg : GoodRng intModulus g0) (fma std : Bool) {nbits : ℕ} (h1 : 1 ≤ nbits) (hb : nbits ≤ 24)
    {t : RootTables} {l : List ℕ} (hrc : RootCalls (2 :: l) t) {n : ℕ} (h4 : 4 ≤ n) (hn : n < 2 ^ 32) {rand : ℕ → SnipRand}
    (hr : ∀ i < n, ValidRand intModulus varCircuit (rand i)) (mx : BitVec 32) {g : Prg} (ha : Function.Injective g.aes)
    (h6 : ((rand 6).g0 : ZMod intModulus) ≠ 0 ∨ (varReal nbits (varDraws n g).2.1 6).toNat ≠ 0) (h8 : (rand 8).B ≠ 0)
    {stale : Stale} (hs : Harmless stale spoilC (varDraws n g).1 n (heldC nbits (varDraws n g).2.2.2)) :
    let real := varReal nbits (varDraws n g).2.1
    let acc := valid (acceptedC nbits (varDraws n g).2.2.2) n
    ∃ out, varInvalid fma std nbits t rand stale n mx g = some out ∧ out.2.2 = varPrinted fma std ((valid countsC n).map real) ∧
      ∀ ord : Map SnipRow → Map SnipRow, IsOrder ord → ∃ (M : ℕ) (Bad : Finset (BatchDraws intModulus 1 M)),
        Bad.card ≤ n * (5 * intModulus ^ (2 * M)) ∧ ∀ ω ∉ Bad, ∀ e0 e1 s0 s1 y coef, Ready e0 e1 s0 s1 out.1 out.2.1 → InStep y s0 s1 → e0.fma = fma →
          e1.ord (α := SnipRow) = ord → (y.refresh e1.draw).x = (ω.1.val : ℤ) →
          (∀ i : Fin M, coefs coef (y.refresh e1.draw).pos 2 i = coefList (ω.2 i)) →
        ∃ s0' s1', Always (iteration false c g0 nbits coef e0 s0) (iteration true c g1 nbits coef e1 s1)
          (.real (verdict acc.length n (varAnswer fma std ((acc.map fun i => (real i).toNat).sum % intModulus : ℕ)
            ((acc.map fun i => (real i).toNat ^ 2).sum % intModulus : ℕ) acc.length)), s0') (.real .noAns, s1') ∧ ∃ y, InStep y s0' s1' := by
  intro real acc
  classical
  obtain ⟨a, b, s0, s1, o, hout, v0, v1, hbad, hb2, hnd, hf, hbk⟩ := varInvalid_streams fma std hb hrc hn hr mx ha hs
  set key := (varDraws n g).1 with hkey
  set r := (varDraws n g).2.1 with hr'
  set s := (varDraws n g).2.2.1 with hs'
  set z := (varDraws n g).2.2.2 with hz
  refine ⟨_, hout, rfl, fun ord hord => ?_⟩
  obtain ⟨Bad, hcard, hB⟩ := C69_var_batch (nbits := nbits) v0 v1 hrc ord hord
  refine ⟨_, Bad, hcard, ?_⟩
  intro ω hω e0 e1 t0 t1 y coef h hy hfma hord' hx hco
  have hinj : ∀ i < n, ∀ j < n, key i = key j → i = j := C80_keys_distinct ha (by omega)
  have hfit : ∃ e ∈ b, varFits nbits e.2 = true := by
    have hm : 3 ∈ (List.range n).filter (heldC nbits z) :=
      List.mem_filter.2 ⟨List.mem_range.2 (by omega), (heldC_iff _ _).2 (by simp)⟩
    exact ⟨_, firstOf_mem (hf 3 hm).2, firstOf_ok (hf 3 hm).2⟩
  obtain ⟨la, -, -⟩ := v0.spec
  obtain ⟨lb, -, -⟩ := v1.spec
  obtain ⟨ans, s0', s1', hP, hA, hI⟩ := iteration_pair c (g1 := g1) hg (nbits := nbits) coef (b := .var std a b) (e0 := e0) (e1 := e1)
    ⟨s0, s1, by rw [h.stream0, la]; exact opens_init _ hn _ _, by rw [la]; exact v0, by rw [h.stream1, lb]; exact opens_init _ hn _ _,
      by rw [lb]; exact v1⟩ ⟨hb, hfit⟩ h.ord h.draw hy
  refine ⟨s0', s1', ?_, _, hI⟩
  have hA : ans = _ := hA
  have hcan : Canon (y.refresh e1.draw).x intModulus := refresh_canon hy.sn0.canon h.draw
  -- the counted keys
  have hG : varCounted (y.refresh e1.draw).x coef (y.refresh e1.draw).pos nbits a b (ord (admit (varFits nbits) b [])).keys = (acc.map key).toFinset := by
    ext k
    rw [List.mem_toFinset]
    constructor
    · intro hk
      have hkb := C40_counted_both hk
      rw [hbk, List.mem_toFinset] at hkb
      obtain ⟨i, hi, rfl⟩ := List.mem_map.1 hkb
      rw [hx] at hk
      obtain ⟨r0, r1, q0, q1, hpr⟩ := hB ω hω coef _ hco _ hk
      rw [(hf i hi).1] at q0; cases q0
      rw [(hf i hi).2] at q1; cases q1
      obtain ⟨hir, hih⟩ := List.mem_filter.1 hi
      have hin := List.mem_range.1 hir
      refine List.mem_map.2 ⟨i, List.mem_filter.2 ⟨hir, (acceptedC_iff _ _ _).2 ?_⟩, rfl⟩
      obtain ⟨c0, c1, c9, c11, c13, c2⟩ := (heldC_iff _ _).1 hih
      by_cases hi2 : i = 2
      · exact .inr ⟨hi2, c2 hi2⟩
      · left
        by_contra hcon
        have hge : 3 ≤ i := by omega
        have hle : i ≤ 8 := by omega
        exact varBad_not_proven h1 hb hrc r s z (hr i hin) hge hle (fun _ => h6) (fun _ => h8) (hbad i hin) hpr
    · intro hk
      obtain ⟨i, hi, rfl⟩ := List.mem_map.1 hk
      obtain ⟨hir, hia⟩ := List.mem_filter.1 hi
      have hin := List.mem_range.1 hir
      have hih : heldC nbits z i = true := accepted_held hia
      have hm : i ∈ (List.range n).filter (heldC nbits z) := List.mem_filter.2 ⟨hir, hih⟩
      have hne : i ≠ 0 := ((heldC_iff _ _).1 hih).1
      have hrange : i < 3 ∨ 8 < i := by rw [acceptedC_iff] at hia; omega
      refine Finset.mem_filter.2 ⟨?_, ?_⟩
      · rw [hbk, List.mem_toFinset]; exact List.mem_map.2 ⟨i, hm, rfl⟩
      · exact varBad_passes hb hrc (hr i hin) hne hrange (hbad i hin) (hf i hm).1 (hf i hm).2 hcan (by simp [coefs, varCircuit])
  have hndA : (acc.map key).Nodup := by
    refine List.Nodup.map_on (fun i hi j hj he => ?_) (List.nodup_range.filter _)
    exact hinj i (List.mem_range.1 (List.mem_filter.1 hi).1) j (List.mem_range.1 (List.mem_filter.1 hj).1) he
  have hval : ∀ i ∈ acc, varVal nbits a b 0 (key i) = (real i).toNat ∧ varVal nbits a b 1 (key i) = (real i).toNat ^ 2 := by
    intro i hi
    obtain ⟨hir, hia⟩ := List.mem_filter.1 hi
    have hin := List.mem_range.1 hir
    have hih : heldC nbits z i = true := accepted_held hia
    rw [acceptedC_iff] at hia
    have hm : i ∈ (List.range n).filter (heldC nbits z) := List.mem_filter.2 ⟨hir, hih⟩
    obtain ⟨pk, w, b', -, -, ho⟩ := varBad_some hb hrc r s z (hr i hin)
    rw [hbad i hin] at ho
    have ho := Option.some.inj ho
    rw [← keyVal_var _ _ _ _ (by omega), ← keyVal_var _ _ _ _ (by omega)]
    unfold keyVal
    rw [(hf i hm).1, (hf i hm).2, ho]
    obtain ⟨e0, e1⟩ := varTooWide hb r s z (show i ≠ 0 by omega) (tamper i pk).1 (tamper i pk).2
    exact ⟨e0, e1.trans (varSquared_eq hb r (by omega) (by omega))⟩
  dsimp only at hA
  rw [hord', hG, List.toFinset_card_of_nodup hndA, List.length_map, la, hfma, List.sum_toFinset _ hndA, List.sum_toFinset _ hndA, List.map_map, List.map_map,
    List.map_congr_left (f := (fun k => varVal nbits a b 0 k) ∘ key) (g := fun i => (real i).toNat) (fun i hi => (hval i hi).1),
    List.map_congr_left (f := (fun k => varVal nbits a b 1 k) ∘ key) (g := fun i => (real i).toNat ^ 2) (fun i hi => (hval i hi).2)] at hA
  rw [hA] at hP
  exact hP.always

/-- If moreover the word drawn for client 2 is out of range, and the sum of the squares that count is below `p`: from 24 submissions on, the answer of the
servers is the one printed (below 24 the batch is reported invalid). -/
theorem C80_var_same_partial (c : StoreCfg) {g0 g1 : StoreRng} (hg : GoodRng intModulus g0) (fma std : Bool) {nbits : ℕ} (h1 : 1 ≤ nbits) (hb : nbits ≤ 24)
    {t : RootTables} {l : List ℕ} (hrc : RootCalls (2 :: l) t) {n : ℕ} (h4 : 4 ≤ n) (hn : n < 2 ^ 32) {rand : ℕ → SnipRand}
    (hr : ∀ i < n, ValidRand intModulus varCircuit (rand i)) (mx : BitVec 32) {g : Prg} (ha : Function.Injective g.aes)
    (h6 : ((rand 6).g0 : ZMod intModulus) ≠ 0 ∨ (varReal nbits (varDraws n g).2.1 6).toNat ≠ 0) (h8 : (rand 8).B ≠ 0)
    (h2 : 2 ^ (2 * nbits) ≤ ((varDraws n g).2.2.2 2).toNat)
    (hp : ((valid countsC n).map fun i => (varReal nbits (varDraws n g).2.1 i).toNat ^ 2).sum < intModulus)
    {stale : Stale} (hs : Harmless stale spoilC (varDraws n g).1 n (heldC nbits (varDraws n g).2.2.2)) :
    ∃ out, varInvalid fma std nbits t rand stale n mx g = some out ∧ (24 ≤ n → out.2.2.isSome = true) ∧
      ∀ ord : Map SnipRow → Map SnipRow, IsOrder ord → ∃ (M : ℕ) (Bad : Finset (BatchDraws intModulus 1 M)),
        Bad.card ≤ n * (5 * intModulus ^ (2 * M)) ∧ ∀ ω ∉ Bad, ∀ e0 e1 s0 s1 y coef, Ready e0 e1 s0 s1 out.1 out.2.1 → InStep y s0 s1 → e0.fma = fma →
          e1.ord (α := SnipRow) = ord → (y.refresh e1.draw).x = (ω.1.val : ℤ) →
          (∀ i : Fin M, coefs coef (y.refresh e1.draw).pos 2 i = coefList (ω.2 i)) →
        ∃ s0' s1', Always (iteration false c g0 nbits coef e0 s0) (iteration true c g1 nbits coef e1 s1)
          (.real (if 24 ≤ n then .ans out.2.2 else .invalid), s0') (.real .noAns, s1') ∧ ∃ y, InStep y s0' s1' := by
  obtain ⟨out, ho, hpr, h⟩ := C80_var_partial c (g1 := g1) hg fma std h1 hb hrc h4 hn hr mx ha h6 h8 hs
  set r := (varDraws n g).2.1 with hr'
  have hv : ∀ v ∈ (valid countsC n).map (varReal nbits r), v.toNat < 2 ^ 32 := by
    intro v hv
    obtain ⟨i, -, rfl⟩ := List.mem_map.1 hv
    exact (varReal_lt (by omega) r i).trans_le (Nat.pow_le_pow_right (by norm_num) (by omega))
  have m1 : ((valid countsC n).map (varReal nbits r)).map (·.toNat) = (valid countsC n).map fun i => (varReal nbits r i).toNat := by rw [List.map_map]; rfl
  have m2 : (((valid countsC n).map (varReal nbits r)).map (·.toNat)).map (fun v => v ^ 2) = (valid countsC n).map fun i => (varReal nbits r i).toNat ^ 2 := by
    rw [List.map_map, List.map_map]; rfl
  have hp48 : intModulus < 2 ^ 48 := by decide
  have hpe := varPrinted_eq fma std hv (by rw [m2]; omega)
  have hle := sum_le_sum_sq (((valid countsC n).map (varReal nbits r)).map (·.toNat))
  rw [m2, m1] at hle
  rw [← hpr, m2, m1, List.length_map] at hpe
  refine ⟨out, ho, ?_, ?_⟩
  · intro h24
    have hne : ((valid countsC n).map (varReal nbits r)).map (·.toNat) ≠ [] := by
      intro h0
      have hm : 10 ∈ valid countsC n := List.mem_filter.2 ⟨List.mem_range.2 (by omega), by decide⟩
      rw [m1, List.map_eq_nil_iff] at h0
      rw [h0] at hm; cases hm
    obtain ⟨a, ha', -⟩ := varAnswer_near fma std hne (by
      rw [List.length_map, List.length_map]; have := valid_le countsC n; omega) (by rw [m2]; omega)
    rw [m2, m1, List.length_map] at ha'
    rw [hpe, ha']; rfl
  · intro ord hord
    obtain ⟨M, Bad, hc, hB⟩ := h ord hord
    refine ⟨M, Bad, hc, fun ω hω e0 e1 s0 s1 y coef hR hy hf ho hx hco => ?_⟩
    have := hB ω hω e0 e1 s0 s1 y coef hR hy hf ho hx hco
    rw [acceptedC_eq h2, Nat.mod_eq_of_lt hp, Nat.mod_eq_of_lt (by omega), ← hpe, C80_threshold_var] at this
    simpa [show n ≠ 0 by omega] using this

/-- With up to three submissions the debugging client stops both servers: server 1 admits none of clients 0, 1, 2 (the word of client 2 being out of range), and
the servers read the first entry of an empty array. The program itself prints no number. -/
theorem C80_false_var_few (fma std : Bool) {nbits : ℕ} (hb : nbits ≤ 24) {t : RootTables} {l : List ℕ} (hrc : RootCalls (2 :: l) t) {n : ℕ} (h3 : n ≤ 3)
    {rand : ℕ → SnipRand} (hr : ∀ i < n, ValidRand intModulus varCircuit (rand i)) (mx : BitVec 32) {g : Prg} (ha : Function.Injective g.aes)
    (h2 : 2 ^ (2 * nbits) ≤ ((varDraws n g).2.2.2 2).toNat) (stale : Stale) :
    ∃ s0 s1, varInvalid fma std nbits t rand stale n mx g =
        some (encInit (initMsg (if std then 8#32 else 7#32) n mx) ++ s0, encInit (initMsg (if std then 8#32 else 7#32) n mx) ++ s1, none) ∧
      ∀ (st0 st1 : SnipState) (coef : ℕ → ℤ) (raw0 raw1 : ℕ → ℕ → ℕ → U64) (ord : Map SnipRow → Map SnipRow), IsOrder ord →
        Crashes0 (varOp0 fma std nbits n s0 coef raw0 st0) (varOp1 nbits n s1 coef raw1 st1 ord) := by
  have hs : Harmless stale spoilC (varDraws n g).1 n (heldC nbits (varDraws n g).2.2.2) := by
    refine ⟨?_, fun h => absurd h (by simp only [spoilC]; omega)⟩
    rintro i (rfl | rfl) h <;> (simp only [spoilC] at h; omega)
  obtain ⟨a, b, s0, s1, o, hout, v0, v1, hbad, hb2, -⟩ := varInvalid_streams fma std hb hrc (by omega) hr mx ha hs
  have hnone : valid countsC n = [] := by interval_cases n <;> decide
  have hpn : varPrinted fma std ((valid countsC n).map (varReal nbits (varDraws n g).2.1)) = none := by rw [hnone]; simp [varPrinted]
  rw [hpn] at hout
  refine ⟨s0, s1, hout, fun st0 st1 coef raw0 raw1 ord hord => ?_⟩
  refine C56_false_var_empty fma std (by omega) v0 v1 (fun e he => ?_) st0 st1 coef raw0 raw1 ord hord
  rw [C49_var_range (by omega)]
  have : e.2 ∈ b.map (·.2) := List.mem_map.2 ⟨e, he, rfl⟩
  rw [hb2] at this
  obtain ⟨i, hi, h⟩ := List.mem_map.1 this
  have hi := List.mem_range.1 hi
  obtain ⟨pk, w, b', -, -, ho⟩ := varBad_some hb hrc (varDraws n g).2.1 (varDraws n g).2.2.1 (varDraws n g).2.2.2 (hr i hi)
  rw [hbad i hi] at ho
  rw [← h, Option.some.inj ho]
  exact varRow1_refused hb _ _ _ (by omega) h2 _

/-- The keys the comments have in mind are harmless here as well, and the other requirements are met: 24 submissions with 4 bits, the draws as in the example
of C59; the word drawn for client 2 is out of range, and the squares are small. -/
example : ∃ (t : RootTables) (l : List ℕ) (r : SnipRand), RootCalls (2 :: l) t ∧ ValidRand intModulus varCircuit r ∧ (r.g0 : ZMod intModulus) ≠ 0 ∧ r.B ≠ 0 ∧
    Function.Injective plainPrg.aes ∧ 2 ^ (2 * 4) ≤ ((varDraws 24 plainPrg).2.2.2 2).toNat ∧
    ((valid countsC 24).map fun i => (varReal 4 (varDraws 24 plainPrg).2.1 i).toNat ^ 2).sum < intModulus ∧
    0 < ((valid countsC 24).map fun i => (varReal 4 (varDraws 24 plainPrg).2.1 i).toNat ^ 2).sum ∧
    Harmless (.meant (varDraws 24 plainPrg).1) spoilC (varDraws 24 plainPrg).1 24 (heldC 4 (varDraws 24 plainPrg).2.2.2) := by
  obtain ⟨t, ht⟩ := C30_sizes (c := varCircuit) varCircuit_ok.small [] _ .start
  refine ⟨t, [], ⟨1, 2, [3, 4], 5, 6, 7, [8], 9, 10, 11, 12, 13⟩, ht, ?_, ?_, by decide, plainPrg_injective, by decide +kernel, by decide +kernel, by decide +kernel,
    C80_meant _ (fun _ => C54_length _) 24 spoilC (by decide) (by decide) ((heldC_iff _ _).2 (by simp [spoilC])) ((heldC_iff _ _).2 (by simp [spoilC]))⟩
  · refine ⟨rfl, rfl, ?_, ?_, ?_, ?_⟩ <;> simp only [IsDraw] <;> decide
  · rw [Ne, ZMod.intCast_zmod_eq_zero_iff_dvd]; decide

end Verif

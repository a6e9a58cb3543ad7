import Verif.LemmasCut
import Verif.PropsDrop

/-!
# C73: a client connection that ends early, in MAX/MIN, VAR/STDDEV, LINREG and FREQ

The specification is `whole`: the submissions that have arrived completely.
-/

namespace Verif

/-! ## recv_in -/

/-- C73, at the socket: `recvCut` is what `recv_in` does with a peer that closes too early, whatever the fragments. -/
theorem C73_recv_in (len : ℕ) (hlen : len < 2 ^ 32) (evs : List RecvEv) (hev : Delivers evs) (buf s : Bytes) (hb : buf.length = len) (hs : s.length < len)
    (out : RecvOut) (h : recvIn (BitVec.ofNat 64 len) (evs ++ [.eof]) buf s = some out) (hr : out.rest = []) :
    recvCut (buf.map some) s = (out.buf.map some, out.rest) ∧ out.ret = 0 := by
  have := C57_recv_in len hlen evs hev buf s hb hs h hr
  have e := this.2
  unfold fillBuf at e
  rw [if_neg (by omega), Prod.mk.injEq, Option.map_some, Option.some.injEq] at e
  rw [recvCut_short (by simpa [hb] using hs), ← e.1, ← e.2]
  exact ⟨by simp, this.1⟩

/-! ## Connections that do not end early -/

theorem whole_full {α : Type} {r : Rd α} {N t : ℕ} {s : Bytes} (hN : 0 < N) (h : t * N ≤ s.length) : whole r N t s = ((r.rep t).run s).map (·.1) := by
  unfold whole
  rw [Nat.min_eq_left ((Nat.le_div_iff_mul_le hN).2 h)]

theorem max_start {B : ℕ} (t : ℕ) {ck : Cells} (hc : ck.length = pkLength) {s : Bytes} (hs : pkLength ≤ s.length) (m : Map (Option (List U64))) :
    maxCutLoop B t ck s m = maxCutLoop B t ((List.replicate pkLength (0#8 : Byte)).map some) s m := by
  cases t with
  | zero => rfl
  | succ t =>
    have : recvCut ck s = recvCut ((List.replicate pkLength (0#8 : Byte)).map some) s := by
      rw [recvCut_full (by rw [hc]; exact hs), recvCut_full (by simpa using hs), hc]
      simp
    rw [maxCutLoop, maxCutLoop, this]

/-- C73. As long as the connection does not end early, the loops are those of the other properties: VAR. -/
theorem C73_full_var (nMul nbits total : ℕ) (s : Bytes) (h : total * varRec nMul ≤ s.length) : varCutIntake nMul nbits total s = varIntake nMul nbits total s := by
  unfold varCutIntake varIntake
  congr 1
  funext mx
  cases total with
  | zero => rfl
  | succ t =>
    rw [var_loop _ (by simp) (by rw [Nat.succ_mul] at h; unfold varRec at h; omega), whole_full (varRec_pos _) h, Option.map_map]
    rfl

/-- C73: MAX and MIN. -/
theorem C73_full_max (B total : ℕ) (s : Bytes) (h : total * maxRec B ≤ s.length) :
    maxCutIntake B total s = (maxIntake B total s).map fun m => m.map wrapRow := by
  unfold maxCutIntake maxIntake
  split
  · cases total with
    | zero => rfl
    | succ t =>
      rw [max_start _ (by simp) (by rw [Nat.succ_mul] at h; unfold maxRec at h; omega), max_loop _ _ _ _ (by simp),
        whole_full (maxRec_pos _) h, Option.map_map, Option.map_map]
      have hl := ((takes_max B).rep (t + 1) s).2 h
      obtain ⟨l, e, hl, -⟩ := hl
      rw [e]
      simp only [Option.map_some, Function.comp, maxSeen, hl, Nat.lt_irrefl, if_false, List.append_nil]
      exact congrArg some (admit_map (ok := fun _ => true) (ok' := fun _ => true) some l [] fun _ _ => rfl).symm
  · rfl

/-- C73: LINREG, whatever the memory held. -/
theorem C73_full_lin (d nMul nbits total : ℕ) (fresh : ℕ → ℕ → Option Byte) (s : Bytes) (h : total * linSize d nMul ≤ s.length) :
    linCutIntake d nMul nbits fresh total s = linIntake d nMul nbits total s := by
  unfold linCutIntake linIntake
  congr 1
  funext mx
  cases total with
  | zero => rfl
  | succ t =>
    rw [lin_defined _ _ _ _ _ _ (by simp) (by simp) (by rw [Nat.succ_mul] at h; unfold linSize at h ⊢; omega), whole_full (linSize_pos _ _) h, Option.map_map]
    rfl

theorem freq_full {w : ℕ} {fresh : ℕ → ℕ → Option Byte} : ∀ (t i : ℕ) (ck : Cells) (s : Bytes) (m : Map (List Bool)), ck.length = pkLength →
    t * freqRec w ≤ s.length → freqCutLoop w fresh t i ck s m = (whole (rdFreqShare w) (freqRec w) t s).map fun l => admit (fun _ => true) l m
  | 0, _, _, _, _, _, _ => by rw [whole_zero]; rfl
  | t + 1, i, ck, s, m, hc, hs => by
    have h : freqRec w ≤ s.length := by rw [Nat.succ_mul] at hs; omega
    obtain ⟨e, he, hk, hstep⟩ := freq_step (t := t) (i := i) (fresh := fresh) hc h m
    have hlen : e.1.length = pkLength := by
      rw [hk, List.length_take, Nat.min_eq_left]; unfold freqRec at h; omega
    rw [hstep, freq_full t _ _ _ _ (by simpa using hlen) (by rw [List.length_drop]; rw [Nat.succ_mul] at hs; omega), whole_step (freqRec_pos _) h he,
      Option.map_map]
    congr 1
    funext l
    rw [Function.comp, admit_one]

/-- C73: FREQ, whatever the memory held. -/
theorem C73_full_freq (w total : ℕ) (fresh : ℕ → ℕ → Option Byte) (s : Bytes) (h : total * freqRec w ≤ s.length) :
    freqCutIntake w fresh total s = freqIntake w total s := by
  unfold freqCutIntake freqIntake
  rw [freq_full _ _ _ _ _ (by simp) h, whole_full (freqRec_pos _) h, Option.map_map]
  rfl

/-! ## VAR -/

/-- C73 for VAR and STDDEV: wherever the connection ends, also inside a submission, exactly the complete submissions are used, provided that
the first `VarShare` (48 bytes) has arrived. -/
theorem C73_var (nMul nbits total : ℕ) (s : Bytes) (h : pkLength + 16 ≤ s.length) :
    varCutIntake nMul nbits total s = varIntake nMul nbits (min total (s.length / varRec nMul)) s := by
  unfold varCutIntake varIntake
  congr 1
  funext mx
  rw [var_loop _ (by simp) h]
  unfold whole
  rw [Option.map_map]; rfl

/-- C73: with less than a key and a value an indeterminate variable is used. -/
theorem C73_var_undefined (nMul nbits total : ℕ) (s : Bytes) (h : s.length < pkLength + 8) (ht : 0 < total) : varCutIntake nMul nbits total s = none := by
  unfold varCutIntake
  cases maxVal nbits with
  | none => rfl
  | some mx =>
    obtain ⟨t, rfl⟩ : ∃ t, total = t + 1 := ⟨total - 1, by omega⟩
    rw [Option.bind_some, varCutLoop, recvCut_short (by rw [List.length_replicate]; omega)]
    dsimp only
    have h2 : knownWord (((s.map some ++ (List.replicate (pkLength + 16) (none : Option Byte)).drop s.length).drop pkLength).take 8) = none := by
      unfold knownWord
      rw [known_none]
      · rfl
      rw [List.mem_iff_getElem]
      refine ⟨7, by simp; omega, ?_⟩
      rw [List.getElem_take, List.getElem_drop, List.getElem_append_right (by simp; omega)]
      simp
    rw [h2]
    cases known ((s.map some ++ (List.replicate (pkLength + 16) (none : Option Byte)).drop s.length).take pkLength) with
    | none => rfl
    | some pk => rfl

theorem var_cut_map {nbits total : ℕ} (h : nbits ≤ 31) {s : Bytes} (hs : total = 0 ∨ pkLength + 16 ≤ s.length) {subs : List (Bytes × SnipRow)}
    (hw : whole (rdVarShare 1) (varRec 1) total s = some subs) : varCutIntake 1 nbits total s = some (admit (varFits nbits) subs []) := by
  rcases hs with rfl | hs
  · rw [whole_zero] at hw
    cases hw
    unfold varCutIntake maxVal
    rw [if_pos (by omega)]; rfl
  · unfold varCutIntake maxVal
    rw [if_pos (by omega), Option.bind_some, var_loop _ (by simp) hs, hw, C49_var_range h]; rfl

theorem var_whole_spec {total : ℕ} {s : Bytes} {subs : List (Bytes × SnipRow)} (hw : whole (rdVarShare 1) (varRec 1) total s = some subs) :
    subs.length ≤ total ∧ Keyed subs ∧ ∀ e ∈ subs, SnipRowOk varCircuit 2 e.2 := by
  obtain ⟨l, e, hl, h⟩ := whole_some (takes_var' 1) total s
  rw [hw] at e
  cases e
  exact ⟨by omega, fun e he => (h e he).1, fun e he => ⟨(h e he).2.1, ⟨(h e he).2.2.1, (h e he).2.2.2⟩⟩⟩

/-- C73 for VAR and STDDEV, the operation: both connections may end anywhere after the first 48 bytes. In every schedule the answer is the one
of C40 for the complete submissions; the number announced counts only for the threshold. -/
theorem C73_var_op (fma std : Bool) {nbits : ℕ} (hb : nbits ≤ 24) {total0 total1 : ℕ} (ht : total1 < 2 ^ 32) {s0 s1 : Bytes}
    (hs0 : total0 = 0 ∨ pkLength + 16 ≤ s0.length) (hs1 : total1 = 0 ∨ pkLength + 16 ≤ s1.length)
    {subs0 subs1 : List (Bytes × SnipRow)} (h0 : whole (rdVarShare 1) (varRec 1) total0 s0 = some subs0)
    (h1 : whole (rdVarShare 1) (varRec 1) total1 s1 = some subs1)
    (hne : ∃ e ∈ subs1, varFits nbits e.2 = true) {x : ℤ} {uses pos : ℕ} {st0 st1 : SnipState} (ho0 : SnipOk x uses pos st0)
    (ho1 : SnipOk x uses pos st1) (coef : ℕ → ℤ) (raw0 raw1 : ℕ → ℕ → ℕ → U64) (ord : Map SnipRow → Map SnipRow) (ho : IsOrder ord) :
    ∃ st0' st1', let o := (ord (admit (varFits nbits) subs1 [])).keys
      let G := varCounted x coef pos nbits subs0 subs1 o
      Always (varCut0 fma std nbits total0 s0 coef raw0 st0) (varCut1 nbits total1 s1 coef raw1 st1 ord)
        (verdict G.card total0 (varAnswer fma std ((∑ k ∈ G, varVal nbits subs0 subs1 0 k) % intModulus : ℕ)
          ((∑ k ∈ G, varVal nbits subs0 subs1 1 k) % intModulus : ℕ) G.card), st0') (.noAns, st1') ∧
      SnipOk x (uses + o.length) (pos + o.length * 2) st0' ∧ SnipOk x (uses + o.length) (pos + o.length * 2) st1' := by
  obtain ⟨l0, k0, r0⟩ := var_whole_spec h0
  obtain ⟨l1, k1, r1⟩ := var_whole_spec h1
  have hp := ho (admit (varFits nbits) subs1 [])
  have hm : varCircuit.mulGates.length = 1 := rfl
  unfold varCut0 varCut1 varRest0 varRest1
  simp only [checkVar_eq, Proc.ofOption, Proc.bind, hm, var_cut_map (by omega : nbits ≤ 31) hs0 h0, var_cut_map (by omega : nbits ≤ 31) hs1 h1]
  generalize ord (admit (varFits nbits) subs1 []) = o at hp
  have hpos : 0 < o.length := by rw [hp.length_eq]; exact admit_pos hne
  have hw : ∀ w ∈ varWidths nbits, w ≤ 48 := by
    intro w hw
    simp only [varWidths, List.mem_cons, List.not_mem_nil, or_false] at hw
    omega
  obtain ⟨a, b, st0', st1', hpair, ha, hbl, hac, hbc, q0, q1, hsum, -⟩ := snipOp_pair varCircuit_ok ho0 ho1 coef
    (ws := varWidths nbits) (show nIn varCircuit.gates ≤ 2 by decide) hw raw0 raw1 (fun _ => [0#64, 0#64]) (fun _ => rfl) (varFits nbits) subs0 subs1 k1 r0 r1
    (by omega) o hp hpos
  have hol : o.keys.length = o.length := by simp [Map.keys]
  refine ⟨st0', st1', ?_, by rw [hol]; exact q0, by rw [hol]; exact q1⟩
  refine Pair.always (hpair.bind ?_)
  have hb0 : Canon (b.getD 0 0) intModulus := by
    rw [List.getD_eq_getElem?_getD, List.getElem?_eq_getElem (by rw [hbl]; simp [varWidths])]
    exact hbc _ (List.getElem_mem _)
  have hb1 : Canon (b.getD 1 0) intModulus := by
    rw [List.getD_eq_getElem?_getD, List.getElem?_eq_getElem (by rw [hbl]; simp [varWidths])]
    exact hbc _ (List.getElem_mem _)
  rw [encFmpz_of_fits (fits_canon hb0), encFmpz_of_fits (fits_canon hb1)]
  refine (Pair.send10 (reads_fmpz (fits_canon hb0))).bind ?_
  refine (Pair.send10 (reads_fmpz (fits_canon hb1))).bind ?_
  have key : ∀ j < 2, fmod (b.getD j 0 + a.getD j 0) intModulus = ((∑ k ∈ varCounted x coef pos nbits subs0 subs1 o.keys,
      varVal nbits subs0 subs1 j k) % intModulus : ℕ) := by
    intro j hj
    have h := hsum j hj
    rw [Finset.sum_congr rfl fun k _ => keyVal_var nbits subs0 subs1 j hj k] at h
    refine canon_eq_of_cast (fmod_canon _) ⟨by omega, ?_⟩ ?_
    · exact_mod_cast Nat.mod_lt _ (by decide)
    · rw [fmod_cast]
      push_cast
      rw [add_comm]
      push_cast at h
      exact h
  rw [key 0 (by omega), key 1 (by omega), finish_eq]
  exact Pair.ret _ _

/-- Two submissions announced, one and a half arrive: all hypotheses of `C73_var_op` hold together. -/
example : ∃ s : Bytes, ∃ e : Bytes × SnipRow, s.length = 180 ∧ pkLength + 16 ≤ s.length ∧ whole (rdVarShare 1) (varRec 1) 2 s = some [e] ∧ varFits 8 e.2 = true :=
  ⟨List.replicate 180 0#8, (List.replicate 32 0#8, ⟨[0#64, 0#64], zeroPacket 1⟩), List.length_replicate .., by rw [List.length_replicate]; decide, by decide +kernel, by decide⟩

/-! ## MAX and MIN -/

/-- The submissions of MAX or MIN that both servers can read for a key held by both. -/
def Readable (B : ℕ) (R0 R1 : List (Bytes × Option (List U64))) : Prop :=
  ∀ k ∈ bothKeys (fun _ => true) R0 R1, ∃ r0 r1, firstOf (fun _ => true) R0 k = some (some r0) ∧ firstOf (fun _ => true) R1 k = some (some r1) ∧
    r0.length = B + 1 ∧ r1.length = B + 1

/-- The aggregate of column `j` over the keys held by both servers. -/
def maxCutCol (R0 R1 : List (Bytes × Option (List U64))) (j : ℕ) : U64 :=
  xorOver (bothKeys (fun _ => true) R0 R1) fun k =>
    (((firstOf (fun _ => true) R0 k).getD none).getD []).getD j 0#64 ^^^ (((firstOf (fun _ => true) R1 k).getD none).getD []).getD j 0#64

theorem max_cut_map {B total : ℕ} (hB : B + 1 < 2 ^ 32) (hsz : total * (B + 1) < 2 ^ 32) {s : Bytes} (hs : total = 0 ∨ pkLength ≤ s.length)
    {subs : List (Bytes × List U64)} (hw : whole (rdMaxShare B) (maxRec B) total s = some subs) :
    maxCutIntake B total s = some (admit (fun _ => true) (maxSeen B total (List.replicate pkLength 0#8) s subs) []) := by
  unfold maxCutIntake
  rw [if_pos ⟨hB, (C61_max_rows_fit B _ hB).2 hsz⟩]
  rcases hs with rfl | hs
  · rw [whole_zero] at hw
    cases hw; rfl
  · rw [max_start _ (by simp) hs, max_loop _ _ _ _ (by simp), hw]; rfl

theorem whole_max_spec {B total : ℕ} {s : Bytes} {subs : List (Bytes × List U64)} (hw : whole (rdMaxShare B) (maxRec B) total s = some subs) :
    subs.length ≤ total ∧ subs.length = min total (s.length / maxRec B) ∧ ∀ e ∈ subs, e.1.length = pkLength ∧ e.2.length = B + 1 := by
  obtain ⟨l, e, hl, h⟩ := whole_some (takes_max B) total s
  rw [hw] at e
  cases e
  exact ⟨by omega, hl, h⟩

theorem maxSeen_keyed {B total : ℕ} {last s : Bytes} (hl : last.length = pkLength) {subs : List (Bytes × List U64)}
    (h : ∀ e ∈ subs, e.1.length = pkLength ∧ e.2.length = B + 1) : Keyed (maxSeen B total last s subs) := by
  intro e he
  unfold maxSeen at he
  rcases List.mem_append.1 he with he | he
  · obtain ⟨e', he', rfl⟩ := List.mem_map.1 he
    exact (h e' he').1
  · split at he
    · rw [List.mem_singleton.1 he]
      refine cutKey_length ?_
      rcases List.eq_nil_or_concat (subs.map (·.1)) with h0 | ⟨l', k, h0⟩
      · rw [h0]; exact hl
      · rw [h0]
        simp only [List.concat_eq_append, List.getLastD_concat]
        have : k ∈ subs.map (·.1) := by rw [h0]; simp
        obtain ⟨e', he', rfl⟩ := List.mem_map.1 this
        exact (h e' he').1
    · simp at he

theorem maxSeen_length {B total : ℕ} {last s : Bytes} {subs : List (Bytes × List U64)} (h : subs.length ≤ total) :
    (maxSeen B total last s subs).length ≤ total := by
  unfold maxSeen
  split <;> simp <;> omega

/-- C73 for MAX and MIN: if the first key does not arrive in full, an indeterminate key is looked up. -/
theorem C73_max_undefined (B total : ℕ) (s : Bytes) (h : s.length < pkLength) (ht : 0 < total) : maxCutIntake B total s = none := by
  unfold maxCutIntake
  split
  · obtain ⟨t, rfl⟩ : ∃ t, total = t + 1 := ⟨total - 1, by omega⟩
    rw [maxCutLoop, recvCut_short (by rw [List.length_replicate]; exact h)]
    dsimp only
    rw [known_none]
    · rfl
    rw [List.mem_append]
    right
    rw [List.drop_replicate, List.mem_replicate]
    exact ⟨by omega, rfl⟩
  · rfl

/-- Non-vacuity: one submission announced, 3 bytes of its key sent. -/
example : maxCutIntake 4 1 [1#8, 2#8, 3#8] = none := C73_max_undefined 4 1 _ (by decide) (by decide)

/-- C73 for MAX and MIN: a connection that ends between submissions, after at least one, is harmless: exactly the complete ones are stored. -/
theorem C73_max_boundary_partial {B total k : ℕ} (hB : B + 1 < 2 ^ 32) (hsz : total * (B + 1) < 2 ^ 32) {s : Bytes} (hs : s.length = k * maxRec B) (hk : 0 < k)
    (hkt : k ≤ total) : maxCutIntake B total s = (maxIntake B k s).map fun m => m.map wrapRow := by
  obtain ⟨subs, e, hl, hsp⟩ := whole_some (takes_max B) total s
  have hdiv : s.length / maxRec B = k := by rw [hs, Nat.mul_div_cancel _ (maxRec_pos B)]
  rw [hdiv, Nat.min_eq_right hkt] at hl
  have hpk : pkLength ≤ s.length := by
    rw [hs]
    exact (show pkLength ≤ maxRec B by unfold maxRec; omega).trans (Nat.le_mul_of_pos_left _ hk)
  rw [max_cut_map hB hsz (Or.inr hpk) e]
  have hfit : k * (B + 1) < 2 ^ 32 := lt_of_le_of_lt (Nat.mul_le_mul_right _ hkt) hsz
  have hrun : ((rdMaxShare B).rep k).run s = some (subs, s.drop (k * maxRec B)) := by
    unfold whole at e
    rw [hdiv, Nat.min_eq_right hkt] at e
    obtain ⟨l, e', -⟩ := ((takes_max B).rep k s).2 (le_of_eq hs.symm)
    rw [e'] at e ⊢
    cases e; rfl
  unfold maxIntake
  rw [if_pos ⟨hB, (C61_max_rows_fit B _ hB).2 hfit⟩, hrun, Option.map_some, Option.map_some]
  congr 1
  have hm := admit_map (ok := fun _ => true) (ok' := fun _ => true) (some : List U64 → Option (List U64)) subs [] fun _ _ => rfl
  refine Eq.trans ?_ hm.symm
  unfold maxSeen
  rw [admit_append]
  show admit _ _ (admit _ (subs.map wrapRow) []) = admit _ (subs.map wrapRow) []
  split
  · rw [admit_one, if_pos]
    · rfl
    · simp only [Bool.not_true, Bool.or_false]
      rw [hl, List.drop_eq_nil_of_le (by omega)]
      rcases List.eq_nil_or_concat subs with h0 | ⟨l', q, h0⟩
      · rw [h0] at hl; simp at hl; omega
      · rw [h0]
        simp only [List.concat_eq_append, List.map_append, List.map_cons, List.map_nil, List.getLastD_concat]
        rw [cutKey_nil (hsp q (by rw [h0]; simp)).1, C34_first_admissible, firstOf, Option.isSome_map, List.find?_isSome]
        exact ⟨wrapRow q, by simp, by simp [wrapRow]⟩
  · rfl

theorem readRows_lookup (m : Map (Option (List U64))) (k : Bytes) : List.lookup k (readRows m) = (List.lookup k m).map fun r => r.getD [] := by
  unfold readRows
  induction m with
  | nil => rfl
  | cons e m ih =>
    rw [List.map_cons]
    by_cases h : k = e.1
    · subst h; simp [List.lookup]
    · have hb : (k == e.1) = false := by simpa using h
      rw [List.lookup, List.lookup, hb]; exact ih

theorem readRows_matched (m : Map (Option (List U64))) (ks : List Bytes) : matched (readRows m) ks = matched m ks := by
  unfold matched
  refine List.map_congr_left fun k _ => ?_
  rw [readRows_lookup, Option.isSome_map]

theorem rowsKnown_iff (m m' : Map (Option (List U64))) (ks : List Bytes) :
    rowsKnown m ks (matched m' ks) = true ↔ ∀ k ∈ ks, (List.lookup k m').isSome = true → List.lookup k m ≠ some none := by
  unfold rowsKnown matched
  rw [List.all_eq_true]
  constructor
  · intro h k hk hm
    have hz : (k, true) ∈ ks.zip (ks.map fun k => (List.lookup k m').isSome) := by
      obtain ⟨i, hi, rfl⟩ := List.mem_iff_getElem.1 hk
      rw [List.mem_iff_getElem]
      exact ⟨i, by simpa using hi, by simp [hm]⟩
    simpa using h _ hz
  · intro h e he
    obtain ⟨i, hi, rfl⟩ := List.mem_iff_getElem.1 he
    rw [List.getElem_zip, List.getElem_map]
    have hi' : i < ks.length := by rw [List.length_zip] at hi; omega
    by_cases hm : (List.lookup ks[i] m').isSome = true
    · simpa [hm] using h _ (List.getElem_mem hi') hm
    · simp [hm]

section
variable (isMax : Bool) {B total0 total1 : ℕ} {s0 s1 : Bytes} {R0 R1 : List (Bytes × Option (List U64))}
  (e0 : maxCutIntake B total0 s0 = some (admit (fun _ => true) R0 [])) (e1 : maxCutIntake B total1 s1 = some (admit (fun _ => true) R1 []))
  (hk1 : Keyed R1) (hl1 : R1.length < 2 ^ 32) (ord : Map (Option (List U64)) → Map (Option (List U64))) (ho : IsOrder ord)
include e0 e1 hk1 hl1 ho

theorem max_cut_leads (hR : Readable B R0 R1) :
    ∃ a b : List U64, (∀ j, a.getD j 0#64 ^^^ b.getD j 0#64 = maxCutCol R0 R1 j) ∧
      Leads (maxCut0 isMax B total0 s0) (maxCut1 B total1 s1 ord)
        (if belowThreshold (bothKeys (fun _ => true) R0 R1).card total0 then .ret .invalid
        else match scanDown a b B with
          | some j => .ret (.ans (if isMax then j else B - j))
          | none => .fault) (.ret .noAns) := by
  unfold maxCut0 maxCut1
  rw [e0, e1]
  have hp := ho (admit (fun _ => true) R1 [])
  simp only [Proc.ofOption, Proc.bind]
  generalize ord (admit (fun _ => true) R1 []) = o at hp
  have hol := order_length hp
  have hboth : ∀ k ∈ o.keys, (List.lookup k (admit (fun _ => true) R0 [])).isSome = true → k ∈ bothKeys (fun _ => true) R0 R1 := by
    intro k hk h
    rw [← bothKeys_eq _ _ _ _ hp, Finset.mem_filter, List.mem_toFinset]
    exact ⟨hk, h⟩
  have hn0 : rowsKnown (admit (fun _ => true) R0 []) o.keys (matched (admit (fun _ => true) R0 []) o.keys) = true := by
    rw [rowsKnown_iff]
    intro k hk h
    obtain ⟨r0, r1, h0, -⟩ := hR k (hboth k hk h)
    rw [C34_first_admissible, h0]; simp
  have hn1 : rowsKnown (admit (fun _ => true) R1 []) o.keys (matched (admit (fun _ => true) R0 []) o.keys) = true := by
    rw [rowsKnown_iff]
    intro k hk h
    obtain ⟨r0, r1, -, h1, -⟩ := hR k (hboth k hk h)
    rw [C34_first_admissible, h1]; simp
  have h0 := maxFold_getD B (readRows (admit (fun _ => true) R0 [])) (readRows (admit (fun _ => true) R0 [])) o.keys (order_nodup hp)
    (fun k hk h => by
      rw [readRows_lookup, Option.isSome_map] at h
      obtain ⟨r0, r1, h0, -, l0, -⟩ := hR k (hboth k hk h)
      rw [readRows_lookup, C34_first_admissible, h0]; exact l0)
  have h1 := maxFold_getD B (readRows (admit (fun _ => true) R1 [])) (readRows (admit (fun _ => true) R0 [])) o.keys (order_nodup hp)
    (fun k hk h => by
      rw [readRows_lookup, Option.isSome_map] at h
      obtain ⟨r0, r1, -, h1, -, l1⟩ := hR k (hboth k hk h)
      rw [readRows_lookup, C34_first_admissible, h1]; exact l1)
  rw [readRows_matched] at h0 h1
  have filt : o.keys.toFinset.filter (fun k => (List.lookup k (readRows (admit (fun _ => true) R0 []))).isSome) = bothKeys (fun _ => true) R0 R1 := by
    rw [← bothKeys_eq _ _ _ _ hp]
    refine Finset.filter_congr fun k _ => ?_
    rw [readRows_lookup, Option.isSome_map]
  refine ⟨maxFold B (readRows (admit (fun _ => true) R0 [])) o.keys (matched (admit (fun _ => true) R0 []) o.keys),
    maxFold B (readRows (admit (fun _ => true) R1 [])) o.keys (matched (admit (fun _ => true) R0 []) o.keys), ?_, ?_⟩
  rotate_left
  · refine (Leads.ofPair (listen_pair o.keys (order_keyed hp hk1) (by simp; omega)) _ _).trans ?_
    rw [if_neg (by rw [hn0]; simp), readRows_matched]
    have hlen' : (o.map (·.1)).length = (matched (admit (fun _ => true) R0 []) o.keys).length := by simp [matched_length]
    rw [hlen']
    refine (Leads.ofPair (Pair.send01 (reads_bools _)) _ _).trans ?_
    rw [if_neg (show ¬ rowsKnown _ o.keys _ = false by rw [hn1]; simp)]
    have hw := reads_words (maxFold B (readRows (admit (fun _ => true) R1 [])) o.keys (matched (admit (fun _ => true) R0 []) o.keys))
    rw [h1.1] at hw
    refine (Leads.ofPair (Pair.send10 hw) _ _).trans ?_
    rw [count_order _ _ _ _ hp]
    exact Leads.refl _ _
  · intro j
    rw [h0.2, h1.2, xorOver_xor, filt]
    unfold maxCutCol
    refine xorOver_congr fun k _ => ?_
    rw [readRows_lookup, readRows_lookup, C34_first_admissible, C34_first_admissible]
    rcases firstOf (fun _ => true) R0 k with _ | _ <;> rcases firstOf (fun _ => true) R1 k with _ | _ <;> rfl

/-- C73, MAX and MIN, the operation. The connections may end anywhere. If for every key held by both servers both rows are complete, the answer in every
schedule is the highest column that does not cancel over those keys, as in C38. -/
theorem C73_max_op (hR : Readable B R0 R1) (hc : ¬ 2 * (bothKeys (fun _ => true) R0 R1).card < total0) (j : ℕ) (hj : j ≤ B)
    (hne : maxCutCol R0 R1 j ≠ 0#64) (hz : ∀ i, j < i → i ≤ B → maxCutCol R0 R1 i = 0#64) :
    Always (maxCut0 isMax B total0 s0) (maxCut1 B total1 s1 ord) (.ans (if isMax then j else B - j)) .noAns := by
  obtain ⟨a, b, hab, h⟩ := max_cut_leads isMax e0 e1 hk1 hl1 ord ho hR
  rw [if_neg (fun h' => hc ((C48_threshold _ _).1 h')), scanDown_some hj (fun he => hne (by rw [← hab, (xor_zero_iff _ _).2 he]))
    (fun i h1 h2 => (xor_zero_iff _ _).1 (by rw [hab, hz i h1 h2]))] at h
  exact h.pair.always

/-- C73, MAX and MIN below the threshold: fewer than half of the announced submissions are held by both servers. -/
theorem C73_max_invalid (hR : Readable B R0 R1) (hc : 2 * (bothKeys (fun _ => true) R0 R1).card < total0) :
    Always (maxCut0 isMax B total0 s0) (maxCut1 B total1 s1 ord) .invalid .noAns := by
  obtain ⟨a, b, -, h⟩ := max_cut_leads isMax e0 e1 hk1 hl1 ord ho hR
  rw [if_pos ((C48_threshold _ _).2 hc)] at h
  exact h.pair.always

end

/-- Every schedule comes to the same end, in which one of the servers has done something undefined. -/
def Faults {α β : Type} (P0 : Proc α) (P1 : Proc β) : Prop :=
  ∃ t : Sys α β, (t.p0 = .fault ∨ t.p1 = .fault) ∧ (∀ u, Steps ⟨P0, P1, [], []⟩ u → Steps u t ∧ (Stuck u → u = t)) ∧
    ¬ ∃ f : ℕ → Sys α β, f 0 = ⟨P0, P1, [], []⟩ ∧ ∀ i, Step (f i) (f (i + 1))

theorem Faults.ofSteps {α β : Type} {P0 : Proc α} {P1 : Proc β} {t : Sys α β} (h : Steps ⟨P0, P1, [], []⟩ t) (hst : Stuck t)
    (hf : t.p0 = .fault ∨ t.p1 = .fault) : Faults P0 P1 := by
  obtain ⟨n, hn⟩ := h
  refine ⟨t, hf, fun u ⟨m, hu⟩ => ?_, C52_no_infinite_schedule ⟨n, hn⟩ hst⟩
  obtain ⟨_, h1, h2⟩ := C52_schedule_independent hn hst hu
  exact ⟨⟨_, h1⟩, h2⟩

theorem Faults.not_always {α β : Type} {P0 : Proc α} {P1 : Proc β} {a : α} {b : β} (h : Faults P0 P1) : ¬ Always P0 P1 a b := by
  intro h'
  obtain ⟨t, ht, h1, _⟩ := h
  have h2 := (h1 _ (h'.1 _ (.refl _)).1).2 (stuck_done a b [] [])
  rw [← h2] at ht
  rcases ht with ht | ht <;> cases ht

section
variable (isMax : Bool) {B total0 total1 : ℕ} {s0 s1 : Bytes} {R0 R1 : List (Bytes × Option (List U64))}
  (e0 : maxCutIntake B total0 s0 = some (admit (fun _ => true) R0 [])) (e1 : maxCutIntake B total1 s1 = some (admit (fun _ => true) R1 []))
  (hk1 : Keyed R1) (hl1 : R1.length < 2 ^ 32) (ord : Map (Option (List U64)) → Map (Option (List U64))) (ho : IsOrder ord)
include e0 e1 hk1 hl1 ho

/-- C73 is false for MAX and MIN inside a submission: a key held by both servers whose row is incomplete at one of them makes that server read
indeterminate memory, in every schedule. -/
theorem C73_false_max {k : Bytes} (hk : k ∈ bothKeys (fun _ => true) R0 R1)
    (hcut : firstOf (fun _ => true) R0 k = some none ∨ firstOf (fun _ => true) R1 k = some none) :
    Faults (maxCut0 isMax B total0 s0) (maxCut1 B total1 s1 ord) := by
  unfold maxCut0 maxCut1
  rw [e0, e1]
  have hp := ho (admit (fun _ => true) R1 [])
  simp only [Proc.ofOption, Proc.bind]
  generalize ord (admit (fun _ => true) R1 []) = o at hp
  have hol := order_length hp
  have hko : k ∈ o.keys ∧ (List.lookup k (admit (fun _ => true) R0 [])).isSome = true := by
    rw [← bothKeys_eq _ _ _ _ hp, Finset.mem_filter, List.mem_toFinset] at hk
    exact hk
  have hpos : 0 < (o.map (·.1)).length := List.length_pos_of_mem hko.1
  have L := (Leads.ofPair (listen_pair o.keys (order_keyed hp hk1) (by simp; omega)) (fun ks =>
    if rowsKnown (admit (fun _ => true) R0 []) ks (matched (admit (fun _ => true) R0 []) ks) = false then .fault else
    (Proc.put (encBools (matched (readRows (admit (fun _ => true) R0 [])) ks))).bind fun _ => (rdWords (B + 1)).toProc.bind fun b =>
      if belowThreshold (numTrue (matched (readRows (admit (fun _ => true) R0 [])) ks)) total0 then Proc.ret (Ret.invalid : Ret ℕ)
      else match scanDown (maxFold B (readRows (admit (fun _ => true) R0 [])) ks (matched (readRows (admit (fun _ => true) R0 [])) ks)) b B with
        | some j => Proc.ret (Ret.ans (if isMax then j else B - j))
        | none => .fault)
    (fun _ => (rdBools (o.map (·.1)).length).toProc.bind fun valid =>
      if rowsKnown (admit (fun _ => true) R1 []) (o.map (·.1)) valid = false then .fault else
      (Proc.put (encWords (maxFold B (readRows (admit (fun _ => true) R1 [])) (o.map (·.1)) valid))).bind fun _ => .ret (.noAns : Ret ℕ))).final
  by_cases h0 : rowsKnown (admit (fun _ => true) R0 []) o.keys (matched (admit (fun _ => true) R0 []) o.keys) = false
  · rw [if_pos h0] at L
    refine Faults.ofSteps L ?_ (Or.inl rfl)
    intro t ht
    cases ht with
    | recv1 n _ _ _ _ hq =>
      have hq' : ((o.map (·.1)).length + 7) / 8 ≤ ([] : Bytes).length := hq
      rw [List.length_nil] at hq'
      omega
  · rw [if_neg h0, readRows_matched] at L
    have hlen' : (o.map (·.1)).length = (matched (admit (fun _ => true) R0 []) o.keys).length := by simp [matched_length]
    rw [hlen'] at L ⊢
    have h1 : rowsKnown (admit (fun _ => true) R1 []) (o.map (·.1)) (matched (admit (fun _ => true) R0 []) o.keys) = false := by
      rw [← Bool.not_eq_true]
      intro h
      have h' := (rowsKnown_iff (admit (fun _ => true) R1 []) (admit (fun _ => true) R0 []) o.keys).1 h k hko.1 hko.2
      rw [C34_first_admissible] at h'
      rcases hcut with hc | hc
      · have h0' := (rowsKnown_iff (admit (fun _ => true) R0 []) (admit (fun _ => true) R0 []) o.keys).1 (by simpa using h0) k hko.1 hko.2
        rw [C34_first_admissible] at h0'
        exact h0' hc
      · exact h' hc
    have L2 := (Leads.ofPair (Pair.send01 (reads_bools (matched (admit (fun _ => true) R0 []) o.keys))) (fun _ => (rdWords (B + 1)).toProc.bind fun b =>
        if belowThreshold (numTrue (matched (admit (fun _ => true) R0 []) o.keys)) total0 then Proc.ret (Ret.invalid : Ret ℕ)
        else match scanDown (maxFold B (readRows (admit (fun _ => true) R0 [])) o.keys (matched (admit (fun _ => true) R0 []) o.keys)) b B with
          | some j => Proc.ret (Ret.ans (if isMax then j else B - j))
          | none => .fault)
      (fun valid => if rowsKnown (admit (fun _ => true) R1 []) (o.map (·.1)) valid = false then .fault else
        (Proc.put (encWords (maxFold B (readRows (admit (fun _ => true) R1 [])) (o.map (·.1)) valid))).bind fun _ => .ret (.noAns : Ret ℕ))).final
    rw [if_pos h1] at L2
    refine Faults.ofSteps (L.trans L2) ?_ (Or.inr rfl)
    intro t ht
    cases ht with
    | recv0 n _ _ _ _ hq => simp at hq

end

/-- The claim fails for MAX: one client has been read; the second disconnects right after its key. -/
theorem C73_false_max_witness (isMax : Bool) (ord : Map (Option (List U64)) → Map (Option (List U64))) (ho : IsOrder ord) :
    Faults (maxCut0 isMax 1 2 (encMaxShares [(List.replicate 32 1#8, [3#64, 5#64])] ++ List.replicate 32 2#8))
      (maxCut1 1 2 (encMaxShares [(List.replicate 32 1#8, [4#64, 5#64])] ++ List.replicate 32 2#8) ord) := by
  refine C73_false_max (R0 := [(List.replicate 32 1#8, some [3#64, 5#64]), (List.replicate 32 2#8, none)])
    (R1 := [(List.replicate 32 1#8, some [4#64, 5#64]), (List.replicate 32 2#8, none)]) isMax (by decide +kernel) (by decide +kernel) ?_ (by decide)
    ord ho (k := List.replicate 32 2#8) (by decide +kernel) (Or.inl (by decide +kernel))
  unfold Keyed
  decide

/-- A batch of which the second submission never reached server 1 at all is answered from the first: the hypotheses of `C73_max_op`. -/
example (ord : Map (Option (List U64)) → Map (Option (List U64))) (ho : IsOrder ord) :
    Always (maxCut0 true 1 2 (encMaxShares [(List.replicate 32 1#8, [3#64, 5#64])] ++ List.replicate 32 2#8))
      (maxCut1 1 2 (encMaxShares [(List.replicate 32 1#8, [4#64, 5#64])]) ord) (.ans 0) .noAns := by
  refine C73_max_op (R0 := [(List.replicate 32 1#8, some [3#64, 5#64]), (List.replicate 32 2#8, none)])
    (R1 := [(List.replicate 32 1#8, some [4#64, 5#64])]) true (by decide +kernel) (by decide +kernel) ?_ (by decide)
    ord ho ?_ (by decide +kernel) 0 (by omega) (by decide +kernel) ?_
  · unfold Keyed; decide
  · intro k hk
    have : k ∈ ({List.replicate 32 1#8} : Finset Bytes) := by
      have h : bothKeys (fun _ => true) [(List.replicate 32 1#8, some [3#64, 5#64]), (List.replicate 32 2#8, none)]
        [(List.replicate 32 1#8, some [4#64, 5#64])] = {List.replicate 32 1#8} := by decide +kernel
      rwa [h] at hk
    rw [Finset.mem_singleton] at this
    subst this
    exact ⟨[3#64, 5#64], [4#64, 5#64], by decide +kernel, by decide +kernel, rfl, rfl⟩
  · intro i h1 h2
    obtain rfl : i = 1 := by omega
    decide +kernel

/-! ## LINREG -/

/-- C73 for LINREG, on a machine whose fresh memory holds some bytes: wherever the connection ends, exactly the complete submissions are used,
provided the first has arrived up to its packet. -/
theorem C73_lin_machine (d nMul nbits total : ℕ) (g : ℕ → ℕ → Byte) (s : Bytes) (h : linHead d ≤ s.length) :
    linCutIntake d nMul nbits (fun i j => some (g i j)) total s = linIntake d nMul nbits (min total (s.length / linSize d nMul)) s := by
  unfold linCutIntake linIntake
  congr 1
  funext mx
  have e : linCutLoop d nMul mx (fun i j => some (g i j)) total 0 (List.replicate pkLength none) (List.replicate 8 none) s [] =
      (whole (rdLinShare d nMul) (linSize d nMul) total s).map fun l => admit (linOk mx) l [] := by
    cases total with
    | zero => rw [whole_zero]; rfl
    | succ t =>
      rw [← lin_known g (t + 1) 0 (List.replicate pkLength 0#8) (List.replicate 8 0#8) s [] (by simp) (by simp)]
      have r1 : recvCut (List.replicate pkLength (none : Option Byte)) s = recvCut ((List.replicate pkLength (0#8 : Byte)).map some) s := by
        rw [recvCut_full (by rw [List.length_replicate]; unfold linHead at h; omega), recvCut_full (by simp; unfold linHead at h; omega)]
        simp
      have r3 : ∀ u : Bytes, 8 ≤ u.length → recvCut (List.replicate 8 (none : Option Byte)) u = recvCut ((List.replicate 8 (0#8 : Byte)).map some) u := by
        intro u hu
        rw [recvCut_full (by rw [List.length_replicate]; exact hu), recvCut_full (by simpa using hu)]
        simp
      rw [linCutLoop, linCutLoop]
      simp only [r1]
      rw [r3]
      simp only [recvCut_drop, List.length_drop, freshCells_length, List.length_map, List.length_replicate]
      unfold linHead at h
      omega
  rw [e]
  unfold whole
  rw [Option.map_map]; rfl

/-- C73 for LINREG, strictly: everything is defined exactly if the announced number of submissions has arrived except perhaps part of the last packet. -/
theorem C73_lin_strict {d : ℕ} (hd : 2 ≤ d) {nbits : ℕ} (hb : nbits < 64) (nMul t : ℕ) (s : Bytes) :
    (linCutIntake d nMul nbits (fun _ _ => none) (t + 1) s).isSome = true ↔ t * linSize d nMul + linHead d ≤ s.length := by
  unfold linCutIntake maxVal
  rw [if_pos hb, Option.bind_some]
  by_cases h : t * linSize d nMul + linHead d ≤ s.length
  · rw [lin_defined _ _ _ _ _ _ (by simp) (by simp) h]
    have ht := takes_lin d nMul
    rw [show pkLength + (8 * (d - 1) + (8 + (8 * numQuad d + (8 * (d - 1) + (8 * (nMul + npow2 nMul + 6) + 0))))) = linSize d nMul by
      unfold linSize linHead; omega] at ht
    obtain ⟨l, e, -⟩ := whole_some ht (t + 1) s
    rw [e]
    simp [h]
  · rw [lin_strict hd (fun _ _ => rfl) _ _ _ _ _ _ (by simp) (by simp) (by omega)]
    simp [h]

/-- `C73_lin_machine` and `C73_lin_strict` on a LINREG connection of two fields that brings one submission and half of a second head. -/
example (g : ℕ → ℕ → Byte) : linCutIntake 2 2 8 (fun i j => some (g i j)) 2 (List.replicate (linSize 2 2 + 30) 0#8) =
    linIntake 2 2 8 1 (List.replicate (linSize 2 2 + 30) 0#8) ∧
    linCutIntake 2 2 8 (fun _ _ => none) 2 (List.replicate (linSize 2 2 + 30) 0#8) = none := by
  constructor
  · rw [C73_lin_machine _ _ _ _ _ _ (by rw [List.length_replicate]; unfold linSize; omega), List.length_replicate]
    rfl
  · rw [← Option.not_isSome_iff_eq_none, C73_lin_strict (by omega) (by omega) 2 1, List.length_replicate]
    decide

/-- C73 is false for LINREG: a client that disconnects inside the values of its submission, behind any number of complete ones, makes the server
decide on indeterminate memory. -/
theorem C73_false_lin {d : ℕ} (hd : 2 ≤ d) (nbits nMul t k : ℕ) (s : Bytes) (hs : s.length < k * linSize d nMul + linHead d) (hk : k ≤ t) :
    linCutIntake d nMul nbits (fun _ _ => none) (t + 1) s = none := by
  by_cases hb : nbits < 64
  · rw [← Option.not_isSome_iff_eq_none, C73_lin_strict hd hb]
    have := Nat.mul_le_mul_right (linSize d nMul) hk
    omega
  · unfold linCutIntake maxVal
    rw [if_neg hb]; rfl

/-! ## FREQ -/

theorem freq_start {w t : ℕ} (g : ℕ → ℕ → Byte) {s : Bytes} (h : pkLength ≤ s.length ∨ t = 0) :
    freqCutIntake w (fun i j => some (g i j)) t s = (whole (rdFreqShare w) (freqRec w) t s).map fun l =>
      admit (fun _ => true) (freqSeen w t 0 g (List.replicate pkLength 0#8) s l) [] := by
  rw [← freq_loop g t 0 _ _ _ (by simp)]
  unfold freqCutIntake
  cases t with
  | zero => rfl
  | succ t =>
    have r1 : recvCut (List.replicate pkLength (none : Option Byte)) s = recvCut ((List.replicate pkLength (0#8 : Byte)).map some) s := by
      rw [recvCut_full (by rw [List.length_replicate]; rcases h with h | h <;> omega), recvCut_full (by simp; rcases h with h | h <;> omega)]
      simp
    rw [freqCutLoop, freqCutLoop]
    simp only [r1]

/-- C73 for FREQ, on a machine whose fresh memory holds some bytes: one more entry than complete submissions is stored, under the key left in the
buffer, overwritten as far as the connection reaches, with the bits of the fresh memory, overwritten likewise. -/
theorem C73_freq_machine (w total : ℕ) (g : ℕ → ℕ → Byte) {s : Bytes} (h : pkLength ≤ s.length) :
    ∃ subs : List (Bytes × List Bool), subs.length = min total (s.length / freqRec w) ∧ Keyed subs ∧
      ((rdFreqShare w).rep (min total (s.length / freqRec w))).run s = some (subs, s.drop (subs.length * freqRec w)) ∧
      freqCutIntake w (fun i j => some (g i j)) total s = some (admit (fun _ => true) (subs ++ if subs.length < total then
        [(let r := s.drop (subs.length * freqRec w)
          (r.take pkLength ++ ((subs.map (·.1)).getLastD (List.replicate pkLength 0#8)).drop r.length,
            (List.range w).map (unpackBit (r.drop pkLength ++
              ((List.range ((w + 7) / 8)).map (g subs.length)).drop (r.length - pkLength)))))] else []) []) := by
  have hl : min total (s.length / freqRec w) * freqRec w ≤ s.length := (Nat.mul_le_mul_right _ (Nat.min_le_right ..)).trans (Nat.div_mul_le_self ..)
  obtain ⟨l, e, hlen, hsp⟩ := (((takes_freq w).rep (min total (s.length / freqRec w))) s).2 hl
  refine ⟨l, hlen, fun q hq => (hsp q hq).1, by rw [e, hlen]; rfl, ?_⟩
  rw [freq_start g (Or.inl h)]
  unfold whole
  rw [e, Option.map_some, Option.map_some]
  congr 2
  unfold freqSeen cutKey cutBits
  rw [Nat.zero_add]

/-- C73 for FREQ: a connection that ends between submissions, after at least one, is harmless on such a machine: exactly the complete ones are stored. -/
theorem C73_freq_boundary_partial {w total k : ℕ} (g : ℕ → ℕ → Byte) {s : Bytes} (hs : s.length = k * freqRec w) (hk : 0 < k) (hkt : k ≤ total) :
    freqCutIntake w (fun i j => some (g i j)) total s = freqIntake w k s := by
  have hdiv : min total (s.length / freqRec w) = k := by rw [hs, Nat.mul_div_cancel _ (freqRec_pos w), Nat.min_eq_right hkt]
  have hpk : pkLength ≤ s.length := by
    rw [hs]
    exact (show pkLength ≤ freqRec w by unfold freqRec; omega).trans (Nat.le_mul_of_pos_left _ hk)
  obtain ⟨subs, hl, -, hr, e⟩ := C73_freq_machine w total g hpk
  rw [hdiv] at hl hr
  rw [e]
  unfold freqIntake
  rw [hr, Option.map_some]
  congr 1
  rw [admit_append]
  split
  · rw [admit_one, if_pos]
    · rfl
    · simp only [Bool.not_true, Bool.or_false]
      rw [hl, List.drop_eq_nil_of_le (by omega)]
      rcases List.eq_nil_or_concat subs with h0 | ⟨l', q, h0⟩
      · rw [h0] at hl; simp at hl; omega
      · rw [h0]
        simp only [List.concat_eq_append, List.map_append, List.map_cons, List.map_nil, List.getLastD_concat]
        rw [List.take_nil, List.nil_append, List.length_nil, List.drop_zero, C34_first_admissible, firstOf, Option.isSome_map, List.find?_isSome]
        exact ⟨q, by simp, by simp⟩
  · rfl

/-- C73 is false for FREQ: strictly, the first incomplete submission is undefined wherever its client disconnects. -/
theorem C73_false_freq {w : ℕ} (hw : 0 < w) (total : ℕ) (s : Bytes) (hs : s.length < total * freqRec w) :
    freqCutIntake w (fun _ _ => none) total s = none :=
  freq_strict hw _ (fun _ _ => rfl) _ _ _ _ _ (by simp) hs

/-- Two announced FREQ submissions of three cells each, of which the second stops two bytes into its key: `C73_freq_machine` stores an entry under a
key made of both keys; `C73_false_freq` calls it undefined. -/
example (g : ℕ → ℕ → Byte) :
    (∃ m, freqCutIntake 3 (fun i j => some (g i j)) 2 (List.replicate 32 1#8 ++ [5#8] ++ [2#8, 2#8]) = some m ∧
      m.keys = [List.replicate 32 1#8, [2#8, 2#8] ++ List.replicate 30 1#8]) ∧
    freqCutIntake 3 (fun _ _ => none) 2 (List.replicate 32 1#8 ++ [5#8] ++ [2#8, 2#8]) = none := by
  refine ⟨⟨[(List.replicate 32 1#8, [true, false, true]), ([2#8, 2#8] ++ List.replicate 30 1#8, (List.range 3).map (unpackBit [g 1 0]))], ?_, rfl⟩,
    C73_false_freq (by omega) _ _ (by decide)⟩
  rfl

/-- A connection that ends right after the first of two. -/
example (g : ℕ → ℕ → Byte) : freqCutIntake 3 (fun i j => some (g i j)) 2 (List.replicate 32 1#8 ++ [5#8]) =
    freqIntake 3 1 (List.replicate 32 1#8 ++ [5#8]) :=
  C73_freq_boundary_partial g (k := 1) (by decide) (by omega) (by omega)

/-- The same for MAX. -/
example : maxCutIntake 1 2 (encMaxShares [(List.replicate 32 1#8, [3#64, 5#64])]) =
    (maxIntake 1 1 (encMaxShares [(List.replicate 32 1#8, [3#64, 5#64])])).map fun m => m.map wrapRow :=
  C73_max_boundary_partial (k := 1) (by omega) (by omega) (by decide) (by omega) (by omega)

end Verif

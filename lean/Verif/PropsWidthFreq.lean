import Verif.PropsWidth
import Verif.PropsEndFreq

/-!
# C71, continued: FREQ with different widths at the client and at the servers

The rows of FREQ have one bit per value, so the width decides how many bytes a submission takes: one byte for up to 3 bits, `2 ^ nbits / 8` bytes
above (net_share.cpp:39-68, server.cpp:1203, 1218-1221).
-/

namespace Verif

/-- A row of bits in a row of another length: cut off, or filled up with zeros. -/
def refit (w : ℕ) (l : List Bool) : List Bool := (List.range w).map fun j => l.getD j false

/-- A row of at most one byte, read with another width of at most one byte. -/
theorem unpack_refit {l : List Bool} (h0 : 0 < l.length) {w : ℕ} (hw : w ≤ 8) : (List.range w).map (unpackBit (encBools l)) = refit w l := by
  refine List.map_congr_left fun i hi => ?_
  have hi := List.mem_range.1 hi
  unfold unpackBit
  rw [and_bit_ne _ _ (Nat.mod_lt _ (by norm_num))]
  have h : i / 8 < (l.length + 7) / 8 := by omega
  have : (encBools l).getD (i / 8) 0#8 = packByte l (i / 8) := by
    unfold encBools
    rw [List.getD_eq_getElem _ _ (by simpa using h)]; simp
  rw [this, packByte_bit _ _ _ (Nat.mod_lt _ (by norm_num))]
  congr 1; omega

theorem freq_stream_refit {w w' : ℕ} (h0 : 0 < w) (h8 : w ≤ 8) (h0' : 0 < w') (h8' : w' ≤ 8) {subs : List (Bytes × List Bool)}
    (h : ∀ e ∈ subs, e.1.length = pkLength ∧ e.2.length = w) :
    FreqStream w' subs.length (encFreqShares subs) (subs.map fun e => (e.1, refit w' e.2)) := by
  refine ⟨[], ?_⟩
  have hrd : Reads ((rdFreqShare w').rep subs.length) (encFreqShares subs) (subs.map fun e => (e.1, refit w' e.2)) := by
    induction subs with
    | nil => exact Reads.ret _
    | cons e subs ih =>
      rw [List.length_cons, Rd.rep, encFreqShares, List.map_cons, List.flatten_cons, List.map_cons]
      obtain ⟨a, b⟩ := h e (List.mem_cons_self ..)
      have w1 : Reads (rdBools w') (encBools e.2) (refit w' e.2) := by
        have := Reads.getRet (n := (w' + 7) / 8) (k := fun buf => (List.range w').map (unpackBit buf)) (bs := encBools e.2)
          (by rw [encBools_length]; omega)
        rwa [unpack_refit (by omega) h8'] at this
      have : Reads (rdFreqShare w') (e.1 ++ encBools e.2) (e.1, refit w' e.2) := by
        unfold rdFreqShare
        exact Reads.bind' (r := .get pkLength .ret) (f := fun pk => (rdBools w').bind fun b => .ret (pk, b)) (Reads.getRet (k := id) a)
          (Reads.bindRet (f := fun b => (e.1, b)) w1) rfl
      exact this.bind (Reads.bindRet (f := fun as => (e.1, refit w' e.2) :: as) (ih fun e hm => h e (List.mem_cons_of_mem _ hm)))
  have := hrd []
  rwa [List.append_nil] at this

theorem refit_vec {w w' v : ℕ} (hv : v < w) {s0 s1 : List Bool} (l0 : s0.length = w) (l1 : s1.length = w)
    (h : List.zipWith (fun a b => a ^^ b) s0 s1 = (List.range w).map fun j => decide (j = v)) :
    List.zipWith (fun a b => a ^^ b) (refit w' s0) (refit w' s1) = (List.range w').map fun j => decide (j = v) := by
  apply List.ext_getElem (by simp [refit])
  intro j h1 h2
  simp only [refit, List.getElem_zipWith, List.getElem_map, List.getElem_range]
  by_cases hj : j < w
  · have := congrArg (fun l => l.getD j false) h
    simp only [List.getD_eq_getElem?_getD, List.getElem?_zipWith, List.getElem?_map, List.getElem?_range hj,
      List.getElem?_eq_getElem (show j < s0.length by omega), List.getElem?_eq_getElem (show j < s1.length by omega)] at this ⊢
    simpa using this
  · rw [List.getD_eq_default _ _ (by omega), List.getD_eq_default _ _ (by omega)]
    have : j ≠ v := by omega
    simp [this]

theorem weight_none {w v : ℕ} (hv : w ≤ v) : weight ((List.range w).map fun j => decide (j = v)) = 0 := by
  unfold weight
  rw [List.count_eq_zero]
  intro h
  obtain ⟨j, hj, e⟩ := List.mem_map.1 h
  have := List.mem_range.1 hj
  simp at e
  omega

/-- The submissions whose value is below `2 ^ nbits`. -/
def freqKept (nbits : ℕ) (rows : List (Row U64 (List Bool))) : List (Row U64 (List Bool)) := rows.filter fun r => decide (r.real.toNat < 2 ^ nbits)

/-- C71 for FREQ, all pairs of widths up to 3 bits (a row is one byte): the submissions with a value below `2 ^ nbits` of the servers are
counted, value by value; the others are dropped, and count as invalid for the threshold. If none is dropped, the validity bytes of C47 stay behind
in the channel. -/
theorem C71_freq_any (c : StoreCfg) {g0 g1 : StoreRng} (hg : GoodRng intModulus g0) {w nbits : ℕ} (hw : w ≤ 3) (hb : nbits ≤ 3) (coef : ℕ → ℤ) {n : ℕ}
    (hsz : n * 2 ^ nbits < 2 ^ 32) (g : Prg) (hk : ((uploadLoop (freqOne w) n g).map (·.pk)).Nodup) {e0 e1 : Env} {s0 s1 : Srv}
    (h : Ready e0 e1 s0 s1 (freqClient w n g).1 (freqClient w n g).2.1) :
    ∃ s0' s1', Ends (iteration false c g0 nbits coef e0 s0) (iteration true c g1 nbits coef e1 s1)
        (.hist (verdict (freqKept nbits (uploadLoop (freqOne w) n g)).length n
          ((List.range (2 ^ nbits)).map fun j => ((((uploadLoop (freqOne w) n g).map fun r => r.real.toNat).count j : ℕ) : ℤ))), s0')
        (.hist .noAns, s1')
        (if (freqKept nbits (uploadLoop (freqOne w) n g)).length = n then encBools (List.replicate n true) else []) [] ∧
      ∃ y, InStep y s0' s1' := by
  obtain ⟨y, hy⟩ := h.step
  set rows := uploadLoop (freqOne w) n g with hrows
  have hlen : rows.length = n := upload_length _ _ _
  have hn : n < 2 ^ 32 := lt_of_le_of_lt (Nat.le_mul_of_pos_right _ (by positivity)) hsz
  have hmx : (1#64 <<< w : U64).toNat = 2 ^ w := shl_toNat (by omega)
  have hp8 : ∀ {k : ℕ}, k ≤ 3 → 2 ^ k ≤ 8 := fun hk => le_trans (Nat.pow_le_pow_right (by norm_num) hk) (by norm_num)
  have hrow : ∀ r ∈ rows, ∃ raw arr, r.real.toNat = raw.toNat % 2 ^ w ∧ arr.length = 2 ^ w ∧ (r.share0, r.share1) = clientFreq w raw arr := by
    intro r hr
    obtain ⟨g', rfl⟩ := upload_mem hr
    refine ⟨g'.word.1, (g'.word.2.bools (1#64 <<< w : U64).toNat).1, mod_shl (by omega) _, ?_, rfl⟩
    simp [Prg.bools, hmx]
  have hreal : ∀ r ∈ rows, r.real.toNat < 2 ^ w := by
    intro r hr
    obtain ⟨raw, arr, e, -⟩ := hrow r hr
    rw [e]; exact Nat.mod_lt _ (by positivity)
  have hvec : ∀ r ∈ rows, r.share0.length = 2 ^ w ∧ r.share1.length = 2 ^ w ∧
      List.zipWith (fun a b => a ^^ b) (refit (2 ^ nbits) r.share0) (refit (2 ^ nbits) r.share1) =
        (List.range (2 ^ nbits)).map fun j => decide (j = r.real.toNat) := by
    intro r hr
    obtain ⟨raw, arr, e, hl, hsh⟩ := hrow r hr
    obtain ⟨a1, a2, a3⟩ := clientFreq_vec (by omega) raw hl
    rw [← hsh] at a1 a2 a3
    rw [← e] at a3
    exact ⟨a1, a2, refit_vec (hreal r hr) a1 a2 a3⟩
  obtain ⟨k0, k1⟩ := upload_keyed (one := freqOne w) (n := n) (g := g)
  have l0 : (sent0 rows).length = n := by simp [sent0, hlen]
  have l1 : (sent1 rows).length = n := by simp [sent1, hlen]
  set a := rows.map fun r => (r.pk, refit (2 ^ nbits) r.share0) with ha
  set b := rows.map fun r => (r.pk, refit (2 ^ nbits) r.share1) with hb'
  have f0 : FreqStream (2 ^ nbits) n (encFreqShares (sent0 rows)) a := by
    have := freq_stream_refit (w := 2 ^ w) (w' := 2 ^ nbits) (by positivity) (hp8 hw) (by positivity) (hp8 hb) (subs := sent0 rows) (fun e he => by
      refine ⟨k0 e he, ?_⟩
      obtain ⟨r, hr, rfl⟩ := List.mem_map.1 he
      exact (hvec r hr).1)
    rw [l0, sent0, List.map_map] at this
    exact this
  have f1 : FreqStream (2 ^ nbits) n (encFreqShares (sent1 rows)) b := by
    have := freq_stream_refit (w := 2 ^ w) (w' := 2 ^ nbits) (by positivity) (hp8 hw) (by positivity) (hp8 hb) (subs := sent1 rows) (fun e he => by
      refine ⟨k1 e he, ?_⟩
      obtain ⟨r, hr, rfl⟩ := List.mem_map.1 he
      exact (hvec r hr).2.1)
    rw [l1, sent1, List.map_map] at this
    exact this
  have la : a.length = n := by simp [ha, hlen]
  have hks : keysOf b = (rows.map (·.pk)).toFinset := keysOf_perm (cs := rows) (pk := (·.pk)) (f := fun r => refit (2 ^ nbits) r.share1) (List.Perm.refl _)
  have hcard : (keysOf b).card = n := by rw [hks, List.toFinset_card_of_nodup hk, List.length_map, hlen]
  obtain ⟨hfo, hbk⟩ := bothKeys_honest_ok (ok := anyRow) rows (·.pk) (fun r => refit (2 ^ nbits) r.share0) (fun r => refit (2 ^ nbits) r.share1) hk
    (fun _ _ => rfl) (fun _ _ => rfl) a b (List.Perm.refl _) (List.Perm.refl _)
  have hfv : ∀ r ∈ rows, freqVec (2 ^ nbits) a b r.pk = (List.range (2 ^ nbits)).map fun j => decide (j = r.real.toNat) := by
    intro r hr
    unfold freqVec
    rw [(hfo r hr).1, (hfo r hr).2]
    exact (hvec r hr).2.2
  have hwt : ∀ r ∈ rows, weight (freqVec (2 ^ nbits) a b r.pk) = if r.real.toNat < 2 ^ nbits then 1 else 0 := by
    intro r hr
    rw [hfv r hr]
    split
    · next hlt => exact weight_unit hlt
    · next hlt => exact weight_none (by omega)
  have hone : oneHotKeys (2 ^ nbits) a b = ((freqKept nbits rows).map (·.pk)).toFinset := by
    ext k
    simp only [oneHotKeys, hbk, freqKept, Finset.mem_filter, List.mem_toFinset, List.mem_map, List.mem_filter, decide_eq_true_eq]
    constructor
    · rintro ⟨⟨r, hr, rfl⟩, h1⟩
      rw [hwt r hr] at h1
      refine ⟨r, ⟨hr, ?_⟩, rfl⟩
      by_contra hc
      rw [if_neg hc] at h1
      omega
    · rintro ⟨r, ⟨hr, hlt⟩, rfl⟩
      exact ⟨⟨r, hr, rfl⟩, by rw [hwt r hr, if_pos hlt]⟩
  have hnk : ((freqKept nbits rows).map (·.pk)).Nodup := hk.sublist (List.filter_sublist.map _)
  have hcone : (oneHotKeys (2 ^ nbits) a b).card = (freqKept nbits rows).length := by
    rw [hone, List.toFinset_card_of_nodup hnk, List.length_map]
  have hW : totalWeight (2 ^ nbits) a b = (freqKept nbits rows).length := by
    unfold totalWeight
    rw [← hcone, oneHotKeys, hbk, ← hks, Finset.card_filter]
    refine Finset.sum_congr rfl fun k hk' => ?_
    rw [hks, List.mem_toFinset] at hk'
    obtain ⟨r, hr, rfl⟩ := List.mem_map.1 hk'
    rw [hwt r hr]
    split <;> simp
  have hhist : ∀ G : Finset Bytes, (G = keysOf b ∨ G = oneHotKeys (2 ^ nbits) a b) → histogram (2 ^ nbits) G (freqVec (2 ^ nbits) a b) =
      (List.range (2 ^ nbits)).map fun j => (((rows.map fun r => r.real.toNat).count j : ℕ) : ℤ) := by
    intro G hG
    unfold histogram
    refine List.map_congr_left fun j hj => ?_
    have hjw := List.mem_range.1 hj
    congr 1
    rw [List.count_eq_length_filter, List.filter_map, List.length_map]
    have hn' : ((rows.filter ((fun x => x == j) ∘ fun r => r.real.toNat)).map (·.pk)).Nodup := hk.sublist ((List.filter_sublist).map _)
    rw [← List.length_map (f := (·.pk)), ← List.toFinset_card_of_nodup hn']
    congr 1
    ext k
    simp only [Finset.mem_filter, List.mem_toFinset, List.mem_map, List.mem_filter, Function.comp_apply, beq_iff_eq]
    constructor
    · rintro ⟨hm, h⟩
      have : ∃ r ∈ rows, r.pk = k := by
        rcases hG with rfl | rfl
        · rw [hks] at hm
          simpa using hm
        · rw [hone] at hm
          obtain ⟨r, hr, e⟩ := List.mem_map.1 (List.mem_toFinset.1 hm)
          exact ⟨r, (List.mem_filter.1 hr).1, e⟩
      obtain ⟨r, hr, rfl⟩ := this
      rw [hfv r hr] at h
      refine ⟨r, ⟨hr, ?_⟩, rfl⟩
      simp [List.getD_eq_getElem?_getD, hjw] at h
      exact h.symm
    · rintro ⟨r, ⟨hr, rfl⟩, rfl⟩
      refine ⟨?_, ?_⟩
      · rcases hG with rfl | rfl
        · rw [hks]
          exact List.mem_toFinset.2 (List.mem_map.2 ⟨r, hr, rfl⟩)
        · rw [hone]
          exact List.mem_toFinset.2 (List.mem_map.2 ⟨r, List.mem_filter.2 ⟨hr, by simpa using hjw⟩, rfl⟩)
      · rw [hfv r hr]
        simp [List.getD_eq_getElem?_getD, hjw]
  have o0 : Opens 10#32 n none e0.stream (encFreqShares (sent0 rows)) := by rw [h.stream0]; exact opens_init _ hn _ _
  have o1 : Opens 10#32 n none e1.stream (encFreqShares (sent1 rows)) := by rw [h.stream1]; exact opens_init _ hn _ _
  by_cases hall : (freqKept nbits rows).length = n
  · obtain ⟨s0', s1', hR, hI⟩ := iteration_freq_left c (g1 := g1) hg (by omega) coef (e0 := e0) (e1 := e1) o0 f0 o1 f1 hcard.le
      (by rw [hcard]; exact hsz) (hW.trans hall) h.ord h.draw hy
    refine ⟨s0', s1', ?_, _, hI⟩
    rw [hcard, hhist _ (Or.inl rfl)] at hR
    rw [if_pos hall, hall]
    exact hR.ends
  · obtain ⟨ans, s0', s1', hP, hA, hI⟩ := iteration_pair c (g1 := g1) hg (nbits := nbits) coef (b := .freq a b) (e0 := e0) (e1 := e1)
      ⟨_, _, by rw [la]; exact o0, by rw [la]; exact f0, by
        have : b.length = n := by simp [hb', hlen]
        rw [this]; exact o1, by
        have : b.length = n := by simp [hb', hlen]
        rw [this]; exact f1⟩
      ⟨by omega, by rw [hcard, la], by rw [hcard]; exact hsz, by rw [hW, la]; exact hall⟩ h.ord h.draw hy
    refine ⟨s0', s1', ?_, _, hI⟩
    simp only [Batch.Answers] at hA
    rw [hA, hcone, la, hhist _ (Or.inr rfl)] at hP
    rw [if_neg hall]
    exact hP.always

/-- C71 for FREQ, the servers' width at least the client's and at most 3: the counts that the client program prints, then zeros for the values that
it cannot have. -/
theorem C71_freq_wider_partial (c : StoreCfg) {g0 g1 : StoreRng} (hg : GoodRng intModulus g0) {w nbits : ℕ} (hw : w ≤ nbits) (hb : nbits ≤ 3)
    (coef : ℕ → ℤ) {n : ℕ} (hsz : n * 2 ^ nbits < 2 ^ 32) (g : Prg) (hk : ((uploadLoop (freqOne w) n g).map (·.pk)).Nodup) {e0 e1 : Env} {s0 s1 : Srv}
    (h : Ready e0 e1 s0 s1 (freqClient w n g).1 (freqClient w n g).2.1) :
    ∃ s0' s1', Ends (iteration false c g0 nbits coef e0 s0) (iteration true c g1 nbits coef e1 s1)
        (.hist (.ans ((freqClient w n g).2.2.map (fun v : ℕ => (v : ℤ)) ++ List.replicate (2 ^ nbits - 2 ^ w) 0)), s0') (.hist .noAns, s1')
        (encBools (List.replicate n true)) [] ∧ ∃ y, InStep y s0' s1' := by
  obtain ⟨s0', s1', hE, hI⟩ := C71_freq_any c (g1 := g1) hg (by omega) hb coef hsz g hk h
  refine ⟨s0', s1', ?_, hI⟩
  have hreal : ∀ r ∈ uploadLoop (freqOne w) n g, r.real.toNat < 2 ^ w := by
    intro r hr
    obtain ⟨g', rfl⟩ := upload_mem hr
    have : ((freqOne w g').1.1).toNat = g'.word.1.toNat % 2 ^ w := mod_shl (by omega) _
    exact lt_of_eq_of_lt this (Nat.mod_lt _ (by positivity))
  have hle : 2 ^ w ≤ 2 ^ nbits := Nat.pow_le_pow_right (by norm_num) hw
  have hall : (freqKept nbits (uploadLoop (freqOne w) n g)).length = n := by
    rw [freqKept, List.filter_eq_self.2, upload_length]
    intro r hr
    simpa using lt_of_lt_of_le (hreal r hr) hle
  have hprinted : (freqClient w n g).2.2 = (List.range (2 ^ w)).map fun j => ((uploadLoop (freqOne w) n g).map fun r => r.real.toNat).count j := freqAns_eq hreal
  rw [hall, if_pos rfl, verdict_full] at hE
  rw [hprinted]
  convert hE using 4
  apply List.ext_getElem
  · simp; omega
  · intro j h1 h2
    rw [List.getElem_append]
    split
    · simp
    · next hj =>
      simp only [List.length_map, List.length_range, not_lt] at hj
      rw [List.getElem_replicate, List.getElem_map, List.getElem_range, List.count_eq_zero.2]
      · rfl
      · intro hm
        obtain ⟨r, hr, e⟩ := List.mem_map.1 hm
        have := hreal r hr
        omega

theorem encFreq_length {w : ℕ} {subs : List (Bytes × List Bool)} (h : ∀ e ∈ subs, e.1.length = pkLength ∧ e.2.length = w) :
    (encFreqShares subs).length = subs.length * (pkLength + (w + 7) / 8) := by
  induction subs with
  | nil => simp [encFreqShares]
  | cons e subs ih =>
    have := ih fun e he => h e (List.mem_cons_of_mem _ he)
    obtain ⟨h1, h2⟩ := h e List.mem_cons_self
    rw [encFreqShares, List.map_cons, List.flatten_cons, List.length_append, List.length_append, encBools_length, h1, h2, List.length_cons,
      Nat.add_mul, Nat.one_mul]
    rw [encFreqShares] at this
    rw [this]
    ring

/-- C71 is false of FREQ from 4 bits on: servers with a larger width than the client read more bytes than it sends, so that after any positive number
of submissions neither server gets through the batch (`none`: the stream ends too early, C73). -/
theorem C71_false_freq {w nbits : ℕ} (hw : w < nbits) (hb : 4 ≤ nbits) (hb' : nbits ≤ 30) {n : ℕ} (hn : 0 < n) (g : Prg) :
    freqIntake (2 ^ nbits) n (encFreqShares (sent0 (uploadLoop (freqOne w) n g))) = none ∧
      freqIntake (2 ^ nbits) n (encFreqShares (sent1 (uploadLoop (freqOne w) n g))) = none := by
  have hmx : (1#64 <<< w : U64).toNat = 2 ^ w := shl_toNat (by omega)
  obtain ⟨k0, k1⟩ := upload_keyed (one := freqOne w) (n := n) (g := g)
  have hlen : (uploadLoop (freqOne w) n g).length = n := upload_length _ _ _
  have hrow : ∀ r ∈ uploadLoop (freqOne w) n g, r.share0.length = 2 ^ w ∧ r.share1.length = 2 ^ w := by
    intro r hr
    obtain ⟨g', rfl⟩ := upload_mem hr
    have := clientFreq_vec (nbits := w) (by omega) g'.word.1 (arr := (g'.word.2.bools (1#64 <<< w : U64).toNat).1) (by simp [Prg.bools, hmx])
    exact ⟨this.1, this.2.1⟩
  have hlt : (2 ^ w + 7) / 8 < (2 ^ nbits + 7) / 8 := by
    obtain ⟨k, rfl⟩ : ∃ k, nbits = 4 + k := ⟨nbits - 4, by omega⟩
    have h1 : 2 ^ w ≤ 2 ^ (3 + k) := Nat.pow_le_pow_right (by norm_num) (by omega)
    have h2 : 2 ^ (4 + k) = 2 * 2 ^ (3 + k) := by rw [← pow_succ']; congr 1; omega
    have h3 : 2 ^ 3 ≤ 2 ^ (3 + k) := Nat.pow_le_pow_right (by norm_num) (by omega)
    omega
  have key : ∀ {subs : List (Bytes × List Bool)}, subs.length = n → (∀ e ∈ subs, e.1.length = pkLength ∧ e.2.length = 2 ^ w) →
      freqIntake (2 ^ nbits) n (encFreqShares subs) = none := by
    intro subs hl hs
    unfold freqIntake
    rw [Option.map_eq_none_iff]
    by_contra hc
    obtain ⟨r, hr⟩ := Option.ne_none_iff_exists'.1 hc
    obtain ⟨h1, -⟩ := ((takes_freq (2 ^ nbits)).rep n).of_run (a := r.1) (rest := r.2) hr
    rw [encFreq_length hs, hl] at h1
    have := Nat.mul_lt_mul_of_pos_left hlt hn
    simp only [Nat.mul_add] at h1
    omega
  constructor
  · refine key (by simp [sent0, hlen]) fun e he => ⟨k0 e he, ?_⟩
    obtain ⟨r, hr, rfl⟩ := List.mem_map.1 he
    exact (hrow r hr).1
  · refine key (by simp [sent1, hlen]) fun e he => ⟨k1 e he, ?_⟩
    obtain ⟨r, hr, rfl⟩ := List.mem_map.1 he
    exact (hrow r hr).2

/-- Submissions for which this holds: a thousand clients with 3 bits, servers with 4. -/
example : freqIntake (2 ^ 4) 1000 (encFreqShares (sent0 (uploadLoop (freqOne 3) 1000 plainPrg))) = none :=
  (C71_false_freq (by norm_num) (by norm_num) (by norm_num) (by norm_num) _).1

/-- C71 is false of FREQ for narrower servers: four clients with 2 bits and the values 0, 3, 2 and 1, servers with 1 bit. Two submissions are dropped,
the other two are enough for an answer. -/
theorem C71_false_freq_narrower (c : StoreCfg) {g0 g1 : StoreRng} (hg : GoodRng intModulus g0) (coef : ℕ → ℤ) :
    ∃ e0 e1 s0 s1 s0' s1', Ready e0 e1 s0 s1 (freqClient 2 4 plainPrg).1 (freqClient 2 4 plainPrg).2.1 ∧
      (freqClient 2 4 plainPrg).2.2 = [1, 1, 1, 1] ∧
      Always (iteration false c g0 1 coef e0 s0) (iteration true c g1 1 coef e1 s1) (.hist (.ans [1, 1]), s0') (.hist .noAns, s1') := by
  have hk : ((uploadLoop (freqOne 2) 4 plainPrg).map (·.pk)).Nodup := by decide +kernel
  obtain ⟨s0', s1', hE, -⟩ := C71_freq_any c (g1 := g1) hg (w := 2) (nbits := 1) (by norm_num) (by norm_num) coef (n := 4) (by norm_num) plainPrg hk
    (plain_ready (freqClient 2 4 plainPrg).1 (freqClient 2 4 plainPrg).2.1)
  have h1 : (freqKept 1 (uploadLoop (freqOne 2) 4 plainPrg)).length = 2 := by decide +kernel
  have h2 : ((List.range (2 ^ 1)).map fun j => ((((uploadLoop (freqOne 2) 4 plainPrg).map fun r => r.real.toNat).count j : ℕ) : ℤ)) = [1, 1] := by decide +kernel
  rw [h1, h2, if_neg (by norm_num)] at hE
  have h3 : verdict 2 4 ([1, 1] : List ℤ) = .ans [1, 1] := by decide
  rw [h3] at hE
  exact ⟨_, _, _, _, s0', s1', plain_ready _ _, by decide +kernel, hE⟩

/-- Wider servers, a thousand clients with one bit: the keys are distinct. -/
example : ((uploadLoop (freqOne 1) 1000 plainPrg).map (·.pk)).Nodup ∧ 1000 * 2 ^ 3 < 2 ^ 32 :=
  ⟨C59_keys_distinct (C59_freq_blocks 1) plainPrg_steady plainPrg_injective (by decide), by norm_num⟩

end Verif

import Verif.PropsEndLin
import Verif.LemmasRobust

/-!
# C71: servers started with another width than the client
-/

namespace Verif

/-- Every submission of the batch is in range for the width `w`. FREQ is left out: the length of its rows depends on the width. -/
def Batch.FitsIn (w : ℕ) : Batch → Prop
  | .intSum a b => (∀ e ∈ a, belowBits w e.2 = true) ∧ ∀ e ∈ b, belowBits w e.2 = true
  | .var _ a b => (∀ e ∈ a, varFits w e.2 = true) ∧ ∀ e ∈ b, varFits w e.2 = true
  | .lin _ a b => (∀ e ∈ a, linFits w e.2 = true) ∧ ∀ e ∈ b, linFits w e.2 = true
  | .freq _ _ => False
  | _ => True

section
variable {α : Type} {ok ok' : α → Bool} {subs subs0 subs1 : List (Bytes × α)}

theorem firstOf_same (h : ∀ e ∈ subs, ok e.2 = true) (h' : ∀ e ∈ subs, ok' e.2 = true) (k : Bytes) : firstOf ok subs k = firstOf ok' subs k := by
  unfold firstOf
  induction subs with
  | nil => rfl
  | cons e l ih =>
    have ih := ih (fun e he => h e (List.mem_cons_of_mem _ he)) fun e he => h' e (List.mem_cons_of_mem _ he)
    rw [List.find?_cons, List.find?_cons, h e List.mem_cons_self, h' e List.mem_cons_self]
    cases e.1 == k <;> simp [ih]

theorem bothKeys_same (h0 : ∀ e ∈ subs0, ok e.2 = true) (h0' : ∀ e ∈ subs0, ok' e.2 = true) (h1 : ∀ e ∈ subs1, ok e.2 = true)
    (h1' : ∀ e ∈ subs1, ok' e.2 = true) : bothKeys ok subs0 subs1 = bothKeys ok' subs0 subs1 := by
  unfold bothKeys
  refine Finset.filter_congr fun k _ => ?_
  rw [firstOf_same h0 h0', firstOf_same h1 h1']

theorem admit_same : ∀ {subs : List (Bytes × α)} (_ : ∀ e ∈ subs, ok e.2 = true) (_ : ∀ e ∈ subs, ok' e.2 = true) (m : Map α),
    admit ok subs m = admit ok' subs m
  | [], _, _, _ => rfl
  | (k, v) :: rs, h, h', m => by
    have ih := fun m => admit_same (subs := rs) (fun e he => h e (List.mem_cons_of_mem _ he)) (fun e he => h' e (List.mem_cons_of_mem _ he)) m
    have e : ok v = ok' v := by rw [h _ List.mem_cons_self, h' _ List.mem_cons_self]
    rw [admit, admit, e, ih, ih]

end

theorem belowBits_mono {w nbits : ℕ} (hw : w ≤ nbits) {v : U64} (h : belowBits w v = true) : belowBits nbits v = true := by
  unfold belowBits at *
  rw [decide_eq_true_iff] at *
  exact lt_of_lt_of_le h (Nat.pow_le_pow_right (by norm_num) hw)

theorem varFits_mono {w nbits : ℕ} (hw : w ≤ nbits) {r : SnipRow} (h : varFits w r = true) : varFits nbits r = true := by
  unfold varFits at *
  rw [Bool.and_eq_true, decide_eq_true_iff, decide_eq_true_iff] at *
  exact ⟨lt_of_lt_of_le h.1 (Nat.pow_le_pow_right (by norm_num) hw), lt_of_lt_of_le h.2 (Nat.pow_le_pow_right (by norm_num) (by omega))⟩

theorem linFits_mono {w nbits : ℕ} (hw : w ≤ nbits) {r : LinRow} (h : linFits w r = true) : linFits nbits r = true := by
  have p1 : (2 : ℕ) ^ w ≤ 2 ^ nbits := Nat.pow_le_pow_right (by norm_num) hw
  have p2 : (2 : ℕ) ^ (2 * w) ≤ 2 ^ (2 * nbits) := Nat.pow_le_pow_right (by norm_num) (by omega)
  unfold linFits at *
  simp only [Bool.and_eq_true, List.all_eq_true, decide_eq_true_iff] at *
  exact ⟨⟨⟨fun v hv => lt_of_lt_of_le (h.1.1.1 v hv) p1, lt_of_lt_of_le h.1.1.2 p1⟩, fun v hv => lt_of_lt_of_le (h.1.2 v hv) p2⟩,
    fun v hv => lt_of_lt_of_le (h.2 v hv) p2⟩

theorem recVal_same {w nbits : ℕ} (hw : w ≤ nbits) {r0 r1 : SnipRow} (h0 : varFits w r0 = true) (h1 : varFits w r1 = true) {j : ℕ} (hj : j < 2) :
    recVal (varWidths w) r0 r1 j = recVal (varWidths nbits) r0 r1 j := by
  have key : ∀ n, w ≤ n → ∀ j < 2, recVal (varWidths n) r0 r1 j = (r0.vals.getD j 0#64 ^^^ r1.vals.getD j 0#64).toNat := by
    intro n hn j hj
    have a := varFits_mono hn h0
    have b := varFits_mono hn h1
    unfold varFits at a b
    rw [Bool.and_eq_true, decide_eq_true_iff, decide_eq_true_iff] at a b
    unfold recVal
    rw [BitVec.toNat_xor]
    refine Nat.mod_eq_of_lt ?_
    rcases (by omega : j = 0 ∨ j = 1) with rfl | rfl
    · exact Nat.xor_lt_two_pow a.1 b.1
    · show _ < 2 ^ (n * 2)
      rw [Nat.mul_comm]
      exact Nat.xor_lt_two_pow a.2 b.2
  rw [key w le_rfl j hj, key nbits hw j hj]

theorem recIn_same {w nbits : ℕ} (hw : w ≤ nbits) {r0 r1 : SnipRow} (h0 : varFits w r0 = true) (h1 : varFits w r1 = true) :
    recIn (varWidths w) r0 r1 = recIn (varWidths nbits) r0 r1 := by
  unfold recIn
  refine List.map_congr_left fun j hj => ?_
  rw [recVal_same hw h0 h1 (by simpa [varWidths] using hj)]

/-- C71: a batch in range for the width `w` has the same answer for every larger width of the servers. -/
theorem C71_answers {w nbits : ℕ} (hw : w ≤ nbits) {b : Batch} (hf : b.FitsIn w) (coef : ℕ → ℤ) (fma : Bool) (ord : {α : Type} → Map α → Map α) (x : ℤ)
    (pos : ℕ) (a : Answer) : b.Answers w coef fma ord x pos a ↔ b.Answers nbits coef fma ord x pos a := by
  cases b with
  | idle _ => exact Iff.rfl
  | bitSum _ _ => exact Iff.rfl
  | xor _ _ _ => exact Iff.rfl
  | max _ _ _ _ => exact Iff.rfl
  | freq _ _ => exact hf.elim
  | intSum s0 s1 =>
    have g0 := fun e he => belowBits_mono hw (hf.1 e he)
    have g1 := fun e he => belowBits_mono hw (hf.2 e he)
    have ek := bothKeys_same hf.1 g0 hf.2 g1
    have et : intTerm (belowBits w) s0 s1 = intTerm (belowBits nbits) s0 s1 := by
      funext k
      unfold intTerm
      rw [firstOf_same hf.1 g0, firstOf_same hf.2 g1]
    simp only [Batch.Answers]
    rw [ek, et]
  | var t s0 s1 =>
    have g0 := fun e he => varFits_mono hw (hf.1 e he)
    have g1 := fun e he => varFits_mono hw (hf.2 e he)
    have e0 := firstOf_same hf.1 g0
    have e1 := firstOf_same hf.2 g1
    have ek := bothKeys_same hf.1 g0 hf.2 g1
    have ea : admit (varFits w) s1 [] = admit (varFits nbits) s1 [] := admit_same hf.2 g1 []
    have eG : ∀ order, varCounted x coef pos w s0 s1 order = varCounted x coef pos nbits s0 s1 order := by
      intro order
      classical
      unfold varCounted passing
      rw [ek]
      refine Finset.filter_congr fun k _ => ?_
      unfold Passes
      constructor
      · rintro ⟨r0, r1, h0, h1, h⟩
        exact ⟨r0, r1, by rw [← e0]; exact h0, by rw [← e1]; exact h1, by rw [← recIn_same hw (firstOf_ok h0) (firstOf_ok h1)]; exact h⟩
      · rintro ⟨r0, r1, h0, h1, h⟩
        rw [← e0] at h0
        rw [← e1] at h1
        exact ⟨r0, r1, h0, h1, by rw [recIn_same hw (firstOf_ok h0) (firstOf_ok h1)]; exact h⟩
    have ev : ∀ j k, varVal w s0 s1 j k = varVal nbits s0 s1 j k := by
      intro j k
      unfold varVal
      rw [e0, e1]
    simp only [Batch.Answers, ea, eG, ev]
  | lin d s0 s1 =>
    have g0 := fun e he => linFits_mono hw (hf.1 e he)
    have g1 := fun e he => linFits_mono hw (hf.2 e he)
    have e0 := firstOf_same hf.1 g0
    have e1 := firstOf_same hf.2 g1
    have ek := bothKeys_same hf.1 g0 hf.2 g1
    have ea : admit (linFits w) s1 [] = admit (linFits nbits) s1 [] := admit_same hf.2 g1 []
    have eG : ∀ c order, linCounted c x coef pos w s0 s1 order = linCounted c x coef pos nbits s0 s1 order := by
      intro c order
      classical
      unfold linCounted
      rw [ek]
      refine Finset.filter_congr fun k _ => ?_
      unfold LinPasses
      rw [e0, e1]
    have ev : linAt w s0 s1 = linAt nbits s0 s1 := by
      funext k
      unfold linAt
      rw [e0, e1]
    simp only [Batch.Answers, ea, eG, ev]

/-- The streams do not depend on the width (except for FREQ). -/
theorem arrives_width {w nbits : ℕ} {b : Batch} (hf : b.FitsIn w) {s0 s1 : Bytes} (h : b.Arrives w s0 s1) : b.Arrives nbits s0 s1 := by
  cases b <;> first | exact h | exact hf.elim

/-- The answer is determined. -/
theorem answers_unique {b : Batch} {nbits : ℕ} {coef : ℕ → ℤ} {fma : Bool} {ord : {α : Type} → Map α → Map α} {x : ℤ} {pos : ℕ} {a a' : Answer}
    (h : b.Answers nbits coef fma ord x pos a) (h' : b.Answers nbits coef fma ord x pos a') : a = a' := by
  cases b with
  | idle _ => exact Eq.trans h (Eq.symm h')
  | bitSum _ _ => exact Eq.trans h (Eq.symm h')
  | intSum _ _ => exact Eq.trans h (Eq.symm h')
  | xor _ _ _ => exact Eq.trans h (Eq.symm h')
  | var _ _ _ => exact Eq.trans h (Eq.symm h')
  | freq _ _ => exact Eq.trans h (Eq.symm h')
  | max t B s0 s1 =>
    simp only [Batch.Answers] at h h'
    split at h
    · next hc => rw [if_pos hc] at h'; exact h.trans h'.symm
    · next hc =>
      rw [if_neg hc] at h'
      obtain ⟨j, hj, hn, hz, rfl⟩ := h
      obtain ⟨j', hj', hn', hz', rfl⟩ := h'
      rcases lt_trichotomy j j' with hlt | rfl | hlt
      · exact absurd (hz j' hlt hj') hn'
      · rfl
      · exact absurd (hz' j hlt hj) hn
  | lin d s0 s1 =>
    obtain ⟨c, hc, xa, ya, q, hq, hx, hy, rfl⟩ := h
    obtain ⟨c', hc', xa', ya', q', hq', hx', hy', rfl⟩ := h'
    rw [hc] at hc'; cases hc'
    have inj : ∀ {l l' : List U64}, l.map (·.toNat) = l'.map (·.toNat) → l = l' :=
      fun h => List.map_injective_iff.2 (fun _ _ => BitVec.eq_of_toNat_eq) h
    have ex : xa = xa' := inj (hx.trans hx'.symm)
    have ey : ya = ya' := inj (hy.trans hy'.symm)
    subst ex; subst ey
    rw [hq] at hq'; cases hq'
    rfl

/-- C71: a round of servers with the width `nbits`, on a batch in range for a smaller width `w`, gives the answer that servers with the width `w` give. -/
theorem C71_round (c : StoreCfg) {g0 g1 : StoreRng} (hg : GoodRng intModulus g0) {w nbits : ℕ} (hw : w ≤ nbits) (coef : ℕ → ℤ) {b : Batch} {e0 e1 : Env}
    (ha : b.Arrives w e0.stream e1.stream) (hf : b.FitsIn w) (hb : b.Ok w) (hb' : b.Ok nbits) (ho : ∀ α : Type, IsOrder (e1.ord (α := α)))
    (hd : Canon e1.draw intModulus) {y : Shared} {s0 s1 : Srv} (hs : InStep y s0 s1) :
    ∃ a t0 t1 u0 u1, Always (iteration false c g0 w coef e0 s0) (iteration true c g1 w coef e1 s1) (a, t0) (b.quiet, t1) ∧
      Always (iteration false c g0 nbits coef e0 s0) (iteration true c g1 nbits coef e1 s1) (a, u0) (b.quiet, u1) ∧ ∃ y', InStep y' u0 u1 := by
  obtain ⟨a, t0, t1, hP, hA, -⟩ := iteration_pair c (g1 := g1) hg (nbits := w) coef ha hb ho hd hs
  obtain ⟨a', u0, u1, hP', hA', hI'⟩ := iteration_pair c (g1 := g1) hg (nbits := nbits) coef (arrives_width hf ha) hb' ho hd hs
  have := answers_unique ((C71_answers hw hf coef _ _ _ _ a).1 hA) hA'
  subst this
  exact ⟨a, t0, t1, u0, u1, hP.always, hP'.always, _, hI'⟩

/-! ## INT_SUM for all pairs of widths -/

/-- The submissions both of whose shares the servers take. -/
def keptRows (nbits : ℕ) (rows : List (Row U64 U64)) : List (Row U64 U64) :=
  rows.filter fun r => decide (r.share0.toNat < 2 ^ nbits) && decide (r.share1.toNat < 2 ^ nbits)

theorem find_key {α : Type} {rows : List (Row U64 U64)} (hk : (rows.map (·.pk)).Nodup) (f : Row U64 U64 → α) (ok : α → Bool) {r : Row U64 U64} (hr : r ∈ rows) :
    firstOf ok (rows.map fun r => (r.pk, f r)) r.pk = if ok (f r) then some (f r) else none := by
  unfold firstOf
  induction rows with
  | nil => cases hr
  | cons q l ih =>
    rw [List.map_cons, List.nodup_cons] at hk
    rw [List.map_cons, List.find?_cons]
    rcases List.mem_cons.1 hr with rfl | hr
    · simp only [beq_self_eq_true, Bool.true_and]
      cases ok (f r) with
      | true => rfl
      | false =>
        simp only [Bool.false_eq_true, if_false]
        rw [Option.map_eq_none_iff, List.find?_eq_none]
        intro e he
        obtain ⟨q, hq, rfl⟩ := List.mem_map.1 he
        have : q.pk ≠ r.pk := fun h => hk.1 (h ▸ List.mem_map.2 ⟨q, hq, rfl⟩)
        simp [this]
    · have hne : (q.pk == r.pk) = false := by
        rw [beq_eq_false_iff_ne]
        exact fun h => hk.1 (h ▸ List.mem_map.2 ⟨r, hr, rfl⟩)
      simp only [hne, Bool.false_and]
      exact ih hk.2 hr

/-- C71 for INT_SUM and any two widths: the answer is the sum of the submissions both of whose shares are in range for the servers. -/
theorem C71_int_any (c : StoreCfg) {g0 g1 : StoreRng} (hg : GoodRng intModulus g0) {w nbits : ℕ} (hb : nbits ≤ 63) (coef : ℕ → ℤ) {n : ℕ}
    (hn : n < 2 ^ 32) (mx : BitVec 32) (g : Prg) (hk : ((uploadLoop (intOne w) n g).map (·.pk)).Nodup) {e0 e1 : Env} {s0 s1 : Srv}
    (h : Ready e0 e1 s0 s1 (intSumClient w n mx g).1 (intSumClient w n mx g).2.1) :
    ∃ s0' s1', Always (iteration false c g0 nbits coef e0 s0) (iteration true c g1 nbits coef e1 s1)
        (.word (verdict (keptRows nbits (uploadLoop (intOne w) n g)).length n
          (BitVec.ofNat 64 ((keptRows nbits (uploadLoop (intOne w) n g)).map fun r => r.real.toNat).sum)), s0') (.word .noAns, s1') ∧
      (∃ y, InStep y s0' s1') ∧ ∀ r ∈ keptRows nbits (uploadLoop (intOne w) n g), r.real.toNat < 2 ^ nbits := by
  obtain ⟨y, hy⟩ := h.step
  set rows := uploadLoop (intOne w) n g with hrows
  obtain ⟨k0, k1⟩ := upload_keyed (one := intOne w) (n := n) (g := g)
  have l0 : (sent0 rows).length = n := by simp [sent0, hrows, upload_length]
  have l1 : (sent1 rows).length = n := by simp [sent1, hrows, upload_length]
  obtain ⟨a, s0', s1', hP, hA, hI⟩ := iteration_pair c (g1 := g1) hg (nbits := nbits) coef
    (b := .intSum (sent0 rows) (sent1 rows)) (e0 := e0) (e1 := e1)
    ⟨[], [], by rw [h.stream0, l0, List.append_nil]; exact opens_init _ hn _ _, by rw [h.stream1, l1, List.append_nil]; exact opens_init _ hn _ _⟩
    ⟨k0, k1, by omega⟩ h.ord h.draw hy
  have hsh : ∀ r ∈ rows, r.share1 = r.share0 ^^^ r.real := by
    intro r hr
    obtain ⟨g', rfl⟩ := upload_mem hr
    rfl
  have hreal : ∀ r ∈ rows, r.share0 ^^^ r.share1 = r.real := by
    intro r hr
    rw [hsh r hr, ← BitVec.xor_assoc, BitVec.xor_self, BitVec.zero_xor]
  have f0 : ∀ r ∈ rows, firstOf (belowBits nbits) (sent0 rows) r.pk = if belowBits nbits r.share0 then some r.share0 else none :=
    fun r hr => find_key hk (·.share0) _ hr
  have f1 : ∀ r ∈ rows, firstOf (belowBits nbits) (sent1 rows) r.pk = if belowBits nbits r.share1 then some r.share1 else none :=
    fun r hr => find_key hk (·.share1) _ hr
  have hmem : ∀ r, r ∈ keptRows nbits rows ↔ r ∈ rows ∧ belowBits nbits r.share0 = true ∧ belowBits nbits r.share1 = true := by
    intro r
    unfold keptRows belowBits
    rw [List.mem_filter, Bool.and_eq_true]
  have hkn : ((keptRows nbits rows).map (·.pk)).Nodup := hk.sublist (List.Sublist.map _ List.filter_sublist)
  have hboth : bothKeys (belowBits nbits) (sent0 rows) (sent1 rows) = ((keptRows nbits rows).map (·.pk)).toFinset := by
    ext k
    rw [mem_both, List.mem_toFinset, List.mem_map]
    constructor
    · rintro ⟨h0, h1⟩
      obtain ⟨v, hv⟩ := Option.isSome_iff_exists.1 h0
      have := firstOf_mem hv
      obtain ⟨r, hr, e⟩ := List.mem_map.1 this
      have ek : r.pk = k := congrArg Prod.fst e
      subst ek
      refine ⟨r, (hmem r).2 ⟨hr, ?_, ?_⟩, rfl⟩
      · rw [f0 r hr] at h0; split at h0 <;> simp_all
      · rw [f1 r hr] at h1; split at h1 <;> simp_all
    · rintro ⟨r, hr, rfl⟩
      obtain ⟨hr, b0, b1⟩ := (hmem r).1 hr
      rw [f0 r hr, f1 r hr, if_pos b0, if_pos b1]
      exact ⟨rfl, rfl⟩
  have hcard : (bothKeys (belowBits nbits) (sent0 rows) (sent1 rows)).card = (keptRows nbits rows).length := by
    rw [hboth, List.toFinset_card_of_nodup hkn, List.length_map]
  have hsum : ∑ k ∈ bothKeys (belowBits nbits) (sent0 rows) (sent1 rows), (intTerm (belowBits nbits) (sent0 rows) (sent1 rows) k).toNat =
      ((keptRows nbits rows).map fun r => r.real.toNat).sum := by
    rw [hboth, sum_keys hkn]
    congr 1
    refine List.map_congr_left fun r hr => ?_
    obtain ⟨hr, b0, b1⟩ := (hmem r).1 hr
    rw [intTerm, f0 r hr, f1 r hr, if_pos b0, if_pos b1, Option.getD_some, Option.getD_some, hreal r hr]
  refine ⟨s0', s1', ?_, ⟨_, hI⟩, fun r hr => ?_⟩
  · have hA : a = _ := hA
    rw [hcard, l0, hsum] at hA
    rw [hA] at hP
    exact hP.always
  · obtain ⟨hr, b0, b1⟩ := (hmem r).1 hr
    unfold belowBits at b0 b1
    rw [decide_eq_true_iff] at b0 b1
    rw [← hreal r hr, BitVec.toNat_xor]
    exact Nat.xor_lt_two_pow b0 b1

/-- What of C71 holds, for INT_SUM: if the servers' width is at least the client's, the answer is what the client prints. -/
theorem C71_int_wider_partial (c : StoreCfg) {g0 g1 : StoreRng} (hg : GoodRng intModulus g0) {w nbits : ℕ} (hw : w ≤ nbits) (hb : nbits ≤ 63) (coef : ℕ → ℤ) {n : ℕ}
    (hn : n < 2 ^ 32) (mx : BitVec 32) (g : Prg) (hk : ((uploadLoop (intOne w) n g).map (·.pk)).Nodup) {e0 e1 : Env} {s0 s1 : Srv}
    (h : Ready e0 e1 s0 s1 (intSumClient w n mx g).1 (intSumClient w n mx g).2.1) :
    ∃ s0' s1', Always (iteration false c g0 nbits coef e0 s0) (iteration true c g1 nbits coef e1 s1)
        (.word (.ans (intSumClient w n mx g).2.2), s0') (.word .noAns, s1') ∧ ∃ y, InStep y s0' s1' := by
  obtain ⟨s0', s1', hA, hI, -⟩ := C71_int_any c (g1 := g1) hg hb coef hn mx g hk h
  obtain ⟨-, -, -, -, hp⟩ := C59_int_sum c (g1 := g1) hg (by omega : w ≤ 63) coef hn mx g hk h
  have hall : keptRows nbits (uploadLoop (intOne w) n g) = uploadLoop (intOne w) n g := by
    unfold keptRows
    rw [List.filter_eq_self]
    intro r hr
    obtain ⟨g', rfl⟩ := upload_mem hr
    have hm : ∀ a : U64, (a % (1#64 <<< w)).toNat < 2 ^ w := fun a => by
      rw [mod_shl (by omega)]; exact Nat.mod_lt _ (by positivity)
    have hle : (2 : ℕ) ^ w ≤ 2 ^ nbits := Nat.pow_le_pow_right (by norm_num) hw
    rw [Bool.and_eq_true, decide_eq_true_iff, decide_eq_true_iff]
    refine ⟨lt_of_lt_of_le (hm _) hle, lt_of_lt_of_le ?_ hle⟩
    show (_ ^^^ _ : U64).toNat < 2 ^ w
    rw [BitVec.toNat_xor]
    exact Nat.xor_lt_two_pow (hm _) (hm _)
  rw [hall, upload_length, verdict_full, ← hp] at hA
  exact ⟨s0', s1', hA, hI⟩

/-- A generator whose block `i` is `3i + 3`. -/
def stepPrg : Prg := ⟨fun b => 3#128 * b + 3#128, fun _ _ _ => false, fun p n => p + n / 16 + 2, 0⟩

theorem stepPrg_injective : Function.Injective stepPrg.aes := by
  intro a b h
  have h : 3#128 * a + 3#128 = 3#128 * b + 3#128 := h
  have h : 3#128 * a = 3#128 * b := by simpa using congrArg (· - 3#128) h
  have := congrArg (0xaaaaaaaaaaaaaaaaaaaaaaaaaaaaaaab#128 * ·) h
  simpa [← BitVec.mul_assoc] using this

/-- C71 is false of a narrower server: two clients of 2 bits with the values 3 and 1, servers of 1 bit. The first is dropped, the other one is
enough for an answer, and nothing tells that the answer 1 is not the sum 4 which the client prints. -/
theorem C71_false_narrower (c : StoreCfg) {g0 g1 : StoreRng} (hg : GoodRng intModulus g0) (coef : ℕ → ℤ) :
    ∃ e0 e1 s0 s1 s0' s1', Ready e0 e1 s0 s1 (intSumClient 2 2 0 stepPrg).1 (intSumClient 2 2 0 stepPrg).2.1 ∧
      Function.Injective stepPrg.aes ∧ (uploadLoop (intOne 2) 2 stepPrg).map (·.real) = [3, 1] ∧ (intSumClient 2 2 0 stepPrg).2.2 = 4#64 ∧
      Always (iteration false c g0 1 coef e0 s0) (iteration true c g1 1 coef e1 s1) (.word (.ans 1#64), s0') (.word .noAns, s1') := by
  have hk : ((uploadLoop (intOne 2) 2 stepPrg).map (·.pk)).Nodup := by decide +kernel
  obtain ⟨s0', s1', hA, -⟩ := C71_int_any c (g1 := g1) hg (w := 2) (nbits := 1) (by norm_num) coef (n := 2) (by norm_num) 0 stepPrg hk
    (plain_ready (intSumClient 2 2 0 stepPrg).1 (intSumClient 2 2 0 stepPrg).2.1)
  have h1 : (keptRows 1 (uploadLoop (intOne 2) 2 stepPrg)).map (fun r => r.real.toNat) = [1] := by decide +kernel
  have h2 : (keptRows 1 (uploadLoop (intOne 2) 2 stepPrg)).length = 1 := by
    have := congrArg List.length h1
    simpa using this
  rw [h1, h2] at hA
  exact ⟨_, _, _, _, s0', s1', plain_ready _ _, stepPrg_injective, by decide +kernel, by decide +kernel, hA⟩

/-! ## VAR, STDDEV and LINREG -/

/-- The submissions of the client program for VAR, as they reach the servers. -/
theorem var_arrives (fma std : Bool) {w : ℕ} (hb : w ≤ 24) {t : RootTables} {l : List ℕ} (hrc : RootCalls (2 :: l) t) {rs : List SnipRand} (hne : rs ≠ [])
    (hn : rs.length < 2 ^ 32) (hr : ∀ r ∈ rs, ValidRand intModulus varCircuit r) {mx : BitVec 32} {g : Prg} {b0 b1 : Bytes} {printed : Option ℝ}
    (hc : varClient fma std w t rs mx g = some (b0, b1, printed)) :
    ∃ b : Batch, b.Arrives w b0 b1 ∧ b.FitsIn w ∧ b.quiet = .real .noAns ∧ ∀ nbits, w ≤ nbits → nbits ≤ 24 → b.Ok nbits := by
  obtain ⟨rows, hrows, q0, q1, hvals⟩ := varLoop_rows (by omega : w ≤ 31) hrc rs g hr
  have hdr : ∀ c ∈ varClients rs g, ValidRand intModulus varCircuit c.rand := fun c hc => hr _ (by
    rw [← varClients_rand rs g]; exact List.mem_map.2 ⟨c, hc, rfl⟩)
  have hlen : (varClients rs g).length = rs.length := by rw [← varClients_rand rs g, List.length_map]; simp [varClients_rand]
  have hlen0 : (sent0 rows).length = rs.length := by have := congrArg List.length q0; simpa [hlen] using this
  have hlen1 : (sent1 rows).length = rs.length := by have := congrArg List.length q1; simpa [hlen] using this
  have hspec := fun c hc => clientVar_spec (by omega : w ≤ 31) hrc c (hdr c hc)
  have hstream : ∀ (sub : List (Bytes × SnipRow)) (F : U64 × SnipRow × SnipRow → SnipRow), (F = (·.2.1) ∨ F = (·.2.2)) →
      sub.map some = (varClients rs g).map (fun c => (c.out w t).map fun o => (c.pk, F o)) →
      ∀ e ∈ sub, (e.1.length = pkLength ∧ e.2.vals.length = 2 ∧ PacketOk varCircuit e.2.packet ∧ ∀ y ∈ e.2.packet.all, Fits y) ∧ varFits w e.2 = true := by
    intro sub F hF hs e he
    have : some e ∈ sub.map some := List.mem_map.2 ⟨e, he, rfl⟩
    rw [hs] at this
    obtain ⟨c, hc, h⟩ := List.mem_map.1 this
    obtain ⟨real, r0, r1, w, ho, -, f0, f1, v0, v1, -, -, -, hpk⟩ := hspec c hc
    rw [ho, Option.map_some, Option.some.injEq] at h
    obtain ⟨a, b⟩ := share_sizes (hdr c hc) hpk
    rw [← h]
    rcases hF with rfl | rfl
    · exact ⟨⟨varClients_key_length rs g c hc, v0, a.1, a.2⟩, f0⟩
    · exact ⟨⟨varClients_key_length rs g c hc, v1, b.1, b.2⟩, f1⟩
  have z0 := hstream _ (·.2.1) (Or.inl rfl) q0
  have z1 := hstream _ (·.2.2) (Or.inr rfl) q1
  obtain ⟨bs0, eb0, rd0⟩ := var_stream fun e he => (z0 e he).1
  obtain ⟨bs1, eb1, rd1⟩ := var_stream fun e he => (z1 e he).1
  rw [varClient, hrows, Option.bind_some, eb0, Option.bind_some, eb1, Option.map_some, Option.some.injEq, Prod.mk.injEq, Prod.mk.injEq] at hc
  have v0 : VarStream rs.length bs0 (sent0 rows) := ⟨[], by have := rd0 []; rwa [List.append_nil, hlen0] at this⟩
  have v1 : VarStream rs.length bs1 (sent1 rows) := ⟨[], by have := rd1 []; rwa [List.append_nil, hlen1] at this⟩
  refine ⟨.var std (sent0 rows) (sent1 rows), ⟨bs0, bs1, by rw [← hc.1, hlen0]; exact opens_init _ hn _ _, by rw [hlen0]; exact v0,
    by rw [← hc.2.1, hlen1]; exact opens_init _ hn _ _, by rw [hlen1]; exact v1⟩, ⟨fun e he => (z0 e he).2, fun e he => (z1 e he).2⟩, rfl,
    fun nbits hw hb => ⟨hb, ?_⟩⟩
  obtain ⟨e, he⟩ := List.exists_mem_of_ne_nil (sent1 rows) (by
    intro h0; rw [h0] at hlen1; exact hne (List.length_eq_zero_iff.1 hlen1.symm))
  exact ⟨e, he, varFits_mono hw (z1 e he).2⟩

/-- What of C71 holds, for VAR and STDDEV: C59 holds for servers of any width from the client's up to 24 bits. -/
theorem C71_var_wider_partial (c : StoreCfg) {g0 g1 : StoreRng} (hg : GoodRng intModulus g0) (fma std : Bool) {w nbits : ℕ} (hw : w ≤ nbits) (hb : nbits ≤ 24)
    (coef : ℕ → ℤ) {t : RootTables} {l : List ℕ} (hrc : RootCalls (2 :: l) t) {rs : List SnipRand} (hne : rs ≠ []) (hn : rs.length < 2 ^ 32)
    (hr : ∀ r ∈ rs, ValidRand intModulus varCircuit r) (mx : BitVec 32) (g : Prg) (ha : Function.Injective g.aes) (hc : g.pos + 3 * rs.length < 2 ^ 64) :
    ∃ rows b0 b1 printed, varLoop w t rs g = some rows ∧ varClient fma std w t rs mx g = some (b0, b1, printed) ∧
      (((rows.map fun r => r.real.toNat ^ 2).sum < intModulus) →
        ∀ {e0 e1 : Env} {s0 s1 : Srv} (_ : Ready e0 e1 s0 s1 b0 b1) (_ : e0.fma = fma),
        ∃ s0' s1', Always (iteration false c g0 nbits coef e0 s0) (iteration true c g1 nbits coef e1 s1) (.real (.ans printed), s0') (.real .noAns, s1') ∧
          ∃ y, InStep y s0' s1') := by
  obtain ⟨rows, b0, b1, printed, h1, h2, h3⟩ := C59_var c (g1 := g1) hg fma std (by omega : w ≤ 24) coef hrc hne hn hr mx g ha hc
  refine ⟨rows, b0, b1, printed, h1, h2, fun hp => ?_⟩
  intro e0 e1 s0 s1 h hf
  obtain ⟨b, hA, hF, hq, hO⟩ := var_arrives fma std (by omega : w ≤ 24) hrc hne hn hr h2
  obtain ⟨y, hy⟩ := h.step
  obtain ⟨v0, v1, hR, -⟩ := (h3 hp).2 h hf
  obtain ⟨a, t0, t1, u0, u1, hR1, hR2, hI⟩ := C71_round c (g1 := g1) hg hw coef (by rw [h.stream0, h.stream1]; exact hA) hF (hO w le_rfl (by omega))
    (hO nbits hw hb) h.ord h.draw hy
  have key : a = _ := congrArg Prod.fst (hR1.unique hR).1
  rw [key, hq] at hR2
  exact ⟨u0, u1, hR2, hI⟩

/-- The submissions of the client program for LINREG, as they reach the servers. -/
theorem lin_arrives {d : ℕ} (hd : 1 ≤ d) (hsm : linMul d < 2 ^ 18) {w : ℕ} (hb : w ≤ 24) {circ : Circuit} (hcirc : checkLinReg intModulus d = some circ)
    {t : RootTables} {l : List ℕ} (hrc : RootCalls (npow2 (linMul d) :: l) t) {rs : List SnipRand} (hne : rs ≠ []) (hn : rs.length < 2 ^ 32)
    (hr : ∀ r ∈ rs, ValidRand intModulus circ r) {mx : BitVec 32} {g : Prg} {b0 b1 : Bytes} {printed : Option (List ℚ)}
    (hc : linClient d w t rs mx g = some (b0, b1, printed)) :
    ∃ b : Batch, b.Arrives w b0 b1 ∧ b.FitsIn w ∧ b.quiet = .lin .noAns ∧ ∀ nbits, w ≤ nbits → nbits ≤ 24 → b.Ok nbits := by
  obtain ⟨rows, hrows, q0, q1, hdr⟩ := linLoop_rows hd hsm (by omega : w ≤ 31) hcirc hrc rs g hr
  obtain ⟨c', e', hcok, hmul, hzero, hin, hevl⟩ := linCircuit hd hsm
  rw [hcirc] at e'; cases e'
  have hdr : ∀ c ∈ linClients d rs g, ValidRand intModulus circ c.rand := fun c hc => hr _ (by
    rw [← linClients_rand d rs g]; exact List.mem_map.2 ⟨c, hc, rfl⟩)
  have hlen : (linClients d rs g).length = rs.length := by
    have := congrArg List.length (linClients_rand d rs g); simpa using this
  have hlen0 : (sent0 rows).length = rs.length := by have := congrArg List.length q0; simpa [hlen] using this
  have hlen1 : (sent1 rows).length = rs.length := by have := congrArg List.length q1; simpa [hlen] using this
  have hd32 : d < 2 ^ 32 := by
    have : d - 1 ≤ linMul d := by unfold linMul; omega
    omega
  have hspec := fun cl hc => clientLin_spec hd hsm (by omega : w ≤ 31) hcirc hrc (linClients_sized d rs g cl hc) (hdr cl hc)
  have hstream : ∀ (sub : List (Bytes × LinRow)) (F : LinRow × LinRow → LinRow), (F = (·.1) ∨ F = (·.2)) →
      sub.map some = (linClients d rs g).map (fun cl => (clientLin d w cl.draws t cl.rand).map fun o => (cl.pk, F o)) →
      ∀ e ∈ sub, (e.1.length = pkLength ∧ LinRowOk circ d e.2 ∧ ∀ y ∈ e.2.packet.all, Fits y) ∧ linFits w e.2 = true := by
    intro sub F hF hs e he
    have : some e ∈ sub.map some := List.mem_map.2 ⟨e, he, rfl⟩
    rw [hs] at this
    obtain ⟨cl, hc, h⟩ := List.mem_map.1 this
    obtain ⟨r0, r1, w, ho, f0, f1, ⟨a3, a4, a5⟩, ⟨a6, a7, a8⟩, -, -, hpk⟩ := hspec cl hc
    rw [ho, Option.map_some, Option.some.injEq] at h
    obtain ⟨a, b⟩ := share_sizes (hdr cl hc) hpk
    rw [← h]
    rcases hF with rfl | rfl
    · exact ⟨⟨(linClients_sized d rs g cl hc).key, ⟨a3, a4, a5, a.1⟩, a.2⟩, f0⟩
    · exact ⟨⟨(linClients_sized d rs g cl hc).key, ⟨a6, a7, a8, b.1⟩, b.2⟩, f1⟩
  have z0 := hstream _ (·.1) (Or.inl rfl) q0
  have z1 := hstream _ (·.2) (Or.inr rfl) q1
  obtain ⟨bs0, eb0, rd0⟩ := lin_stream hd32 hmul fun e he => (z0 e he).1
  obtain ⟨bs1, eb1, rd1⟩ := lin_stream hd32 hmul fun e he => (z1 e he).1
  rw [linClient, hrows, Option.bind_some, eb0, Option.bind_some, eb1, Option.bind_some, Option.map_eq_some_iff] at hc
  obtain ⟨q, -, hc⟩ := hc
  rw [Prod.mk.injEq, Prod.mk.injEq] at hc
  have v0 : LinStream d rs.length bs0 (sent0 rows) := by have := rd0 []; rwa [List.append_nil, hlen0] at this
  have v1 : LinStream d rs.length bs1 (sent1 rows) := by have := rd1 []; rwa [List.append_nil, hlen1] at this
  refine ⟨.lin d (sent0 rows) (sent1 rows), ⟨bs0, bs1, by rw [← hc.1, hlen0]; exact opens_init _ hn _ _, by rw [hlen0]; exact v0,
    by rw [← hc.2.1, hlen1]; exact opens_init _ hn _ _, by rw [hlen1]; exact v1⟩, ⟨fun e he => (z0 e he).2, fun e he => (z1 e he).2⟩, rfl,
    fun nbits hw hb => ⟨hb, hd, hsm, ?_⟩⟩
  obtain ⟨e, he⟩ := List.exists_mem_of_ne_nil (sent1 rows) (by
    intro h0; rw [h0] at hlen1; exact hne (List.length_eq_zero_iff.1 hlen1.symm))
  exact ⟨e, he, linFits_mono hw (z1 e he).2⟩

/-- What of C71 holds, for LINREG: C59 holds for servers of any width from the client's up to 24 bits. -/
theorem C71_lin_wider_partial (c : StoreCfg) {g0 g1 : StoreRng} (hg : GoodRng intModulus g0) {d : ℕ} (hd : 1 ≤ d) (hsm : linMul d < 2 ^ 18) {w nbits : ℕ} (hw : w ≤ nbits)
    (hb : nbits ≤ 24) (coef : ℕ → ℤ) {circ : Circuit} (hcirc : checkLinReg intModulus d = some circ) {t : RootTables} {l : List ℕ}
    (hrc : RootCalls (npow2 (linMul d) :: l) t) {rs : List SnipRand} (hne : rs ≠ []) (hn : rs.length < 2 ^ 32)
    (hr : ∀ r ∈ rs, ValidRand intModulus circ r) (mx : BitVec 32) (g : Prg) (ha : Function.Injective g.aes) (hc : g.pos + linBlocks d * rs.length < 2 ^ 64) :
    let data := (linClients d rs g).map (·.data w)
    (∀ n ∈ xSums d data ++ ySums d data, n < intModulus) →
    ∃ b0 b1 printed, linClient d w t rs mx g = some (b0, b1, printed) ∧
      ∀ {e0 e1 : Env} {s0 s1 : Srv} (_ : Ready e0 e1 s0 s1 b0 b1),
        ∃ s0' s1', Always (iteration false c g0 nbits coef e0 s0) (iteration true c g1 nbits coef e1 s1) (.lin (.ans printed), s0') (.lin .noAns, s1') ∧
          ∃ y, InStep y s0' s1' := by
  intro data hp
  obtain ⟨b0, b1, printed, h2, -, -, h3⟩ := C59_lin c (g1 := g1) hg hd hsm (by omega : w ≤ 24) coef hcirc hrc hne hn hr mx g ha hc hp
  refine ⟨b0, b1, printed, h2, ?_⟩
  intro e0 e1 s0 s1 h
  obtain ⟨b, hA, hF, hq, hO⟩ := lin_arrives hd hsm (by omega : w ≤ 24) hcirc hrc hne hn hr h2
  obtain ⟨y, hy⟩ := h.step
  obtain ⟨v0, v1, hR, -⟩ := h3 h
  obtain ⟨a, t0, t1, u0, u1, hR1, hR2, hI⟩ := C71_round c (g1 := g1) hg hw coef (by rw [h.stream0, h.stream1]; exact hA) hF (hO w le_rfl (by omega))
    (hO nbits hw hb) h.ord h.draw hy
  have key : a = _ := congrArg Prod.fst (hR1.unique hR).1
  rw [key, hq] at hR2
  exact ⟨u0, u1, hR2, hI⟩

/-- A batch in range for 2 bits, and clients of 2 bits for servers of 3 bits. -/
example : (Batch.intSum [([1], 3#64), ([2], 0#64)] [([1], 2#64), ([2], 1#64)]).FitsIn 2 ∧
    ((uploadLoop (intOne 2) 2 stepPrg).map (·.pk)).Nodup ∧ (keptRows 3 (uploadLoop (intOne 2) 2 stepPrg)).map (·.real) = [3, 1] := by
  refine ⟨⟨?_, ?_⟩, by decide +kernel, by decide +kernel⟩ <;> decide

end Verif

import Verif.LemmasViewRun
import Verif.PropsView

/-! # Changes of randomness that hide a change of inputs: the packets of C32 and the masks of the share conversion -/

namespace Verif

/-! ### Packets -/

theorem exists_equiv {S T G : Type} {P : S → Prop} {g : S → G} {F F' : S → Option T} {W : T → Prop} (hF : ∀ s, P s → ∃ v, F s = some v ∧ W v)
    (hF' : ∀ s, P s → ∃ v, F' s = some v ∧ W v) (u : ∀ v a, W v → ∃! s, g s = a ∧ P s ∧ F s = some v)
    (u' : ∀ v a, W v → ∃! s, g s = a ∧ P s ∧ F' s = some v) :
    ∃ e : {s // P s} ≃ {s // P s}, ∀ s, g (e s).1 = g s.1 ∧ F' (e s).1 = F s.1 := by
  have ex : ∀ s : {s // P s}, ∃ s' : {s // P s}, g s'.1 = g s.1 ∧ F' s'.1 = F s.1 := by
    intro s
    obtain ⟨v, hv, hw⟩ := hF s.1 s.2
    obtain ⟨s', ⟨h1, h2, h3⟩, -⟩ := u' v (g s.1) hw
    exact ⟨⟨s', h2⟩, h1, by rw [h3, hv]⟩
  choose e he using ex
  refine ⟨Equiv.ofBijective e ⟨?_, ?_⟩, he⟩
  · intro s s' h
    obtain ⟨v, hv, hw⟩ := hF s.1 s.2
    have a := he s
    have b := he s'
    rw [h] at a
    refine Subtype.ext ((u v (g s.1) hw).unique ⟨rfl, s.2, hv⟩ ⟨b.1.symm.trans a.1, s'.2, ?_⟩)
    rw [← b.2, a.2, hv]
  · intro s
    obtain ⟨v, hv, hw⟩ := hF' s.1 s.2
    obtain ⟨q, ⟨h1, h2, h3⟩, -⟩ := u v (g s.1) hw
    refine ⟨⟨q, h2⟩, Subtype.ext ((u' v (g s.1) hw).unique ⟨?_, (e ⟨q, h2⟩).2, ?_⟩ ⟨rfl, s.2, hv⟩)⟩
    · rw [(he ⟨q, h2⟩).1, h1]
    · rw [(he ⟨q, h2⟩).2, h3]

section
variable {c : Circuit} (wf : c.WF) {inps w : List ℤ} {b : Bool} (hev : c.eval intModulus inps = some (w, b)) {t : RootTables} {l : List ℕ}
  (hrc : RootCalls (npow2 c.mulGates.length :: l) t) {x : ℤ} (hx : Canon x intModulus) {pre : CheckerPre}
  (hpre : checkerPre intModulus t (npow2 c.mulGates.length) x = some pre) {r : SnipRand} (hr : ValidRand intModulus c r)
include wf hev hrc hx hpre hr

theorem views_valid {i0 i1 : List ℤ} (hl0 : i0.length = inps.length) (hl1 : i1.length = inps.length) :
    (∃ v, view0 intModulus c w t pre i1 r = some v ∧ ValidView intModulus c v.1 v.2) ∧
    ∃ v, view1 intModulus c w t pre i0 r = some v ∧ ValidView intModulus c v.1 v.2 := by
  have ht := (C02_tables_after_any_history _ _ hrc).1 _ _ rfl
  have hNpos : 0 < npow2 c.mulGates.length := lt_of_le_of_lt (Nat.zero_le _) (npow2_gt _)
  obtain ⟨pre', hpre', hpok⟩ := checkerPre_ok hNpos ht hx
  rw [hpre] at hpre'; cases hpre'
  rw [Circuit.eval, Option.bind_eq_some_iff] at hev
  obtain ⟨w', hw, hz⟩ := hev
  rw [Option.map_eq_some_iff] at hz
  obtain ⟨zs, -, hz2⟩ := hz
  cases hz2
  have hin := nIn_le_of_eval hw
  obtain ⟨hvl, hlen, hform, -⟩ := client_form intModulus_two_ne wf (evalGates_all hw).1 ht r.f0 r.g0
  have lm : (subAll intModulus r.mul (c.mulGates.map (at0 w))).length = c.mulGates.length := by
    rw [subAll_length _ (by rw [hr.lm, List.length_map]), List.length_map]
  have lh : (subAll intModulus r.h hvl).length = npow2 c.mulGates.length := by rw [subAll_length _ (by rw [hr.lh, hlen]), hlen]
  have sp := hform r rfl rfl
  rw [splitAll_eq (by rw [hr.lm, List.length_map]), splitAll_eq (by rw [hr.lh, hlen])] at sp
  constructor
  · rw [view0, sp, Option.bind_some]
    obtain ⟨k, hk⟩ := checker_exists wf hpok true (pk := ⟨subAll intModulus r.mul (c.mulGates.map (at0 w)), fmod (r.f0 - r.f0s) intModulus,
      fmod (r.g0 - r.g0s) intModulus, fmod (fmod (r.f0 * r.g0) intModulus - r.h0s) intModulus, subAll intModulus r.h hvl,
      ⟨fmod (r.A - r.As) intModulus, fmod (r.B - r.Bs) intModulus, fmod (fmod (r.A * r.B) intModulus - r.Cs) intModulus⟩⟩)
      (i := i1) (by omega) lm lh
    dsimp only
    rw [hk, Option.map_some]
    exact ⟨_, rfl, hr.lh, hr.lm, hr.h, hr.m, hr.s, ⟨hr.t.2.2.1, hr.t.2.2.2.1, hr.t.2.2.2.2⟩, fmod_canon _, fmod_canon _⟩
  · rw [view1, sp, Option.bind_some]
    obtain ⟨k, hk⟩ := checker_exists wf hpok false (pk := ⟨r.mul, r.f0s, r.g0s, r.h0s, r.h, ⟨r.As, r.Bs, r.Cs⟩⟩) (i := i0) (by omega) hr.lm hr.lh
    dsimp only
    rw [hk, Option.map_some]
    exact ⟨_, rfl, lh, lm, subAll_canon _ _, subAll_canon _ _, ⟨fmod_canon _, fmod_canon _, fmod_canon _⟩,
      ⟨fmod_canon _, fmod_canon _, fmod_canon _⟩, fmod_canon _, fmod_canon _⟩

end

/-- For any two accepted inputs there is a bijection of the client's draws under which server 0 sees the same. -/
theorem view0_equiv {c : Circuit} (wf : c.WF) {inps w inps' w' : List ℤ} {b b' : Bool} (hev : c.eval intModulus inps = some (w, b))
    (hev' : c.eval intModulus inps' = some (w', b')) {t : RootTables} {l : List ℕ}
    (hrc : RootCalls (npow2 c.mulGates.length :: l) t) {x : ℤ} (hx : Canon x intModulus) {pre : CheckerPre}
    (hpre : checkerPre intModulus t (npow2 c.mulGates.length) x = some pre) {i1 i1' : List ℤ} (hl : i1.length = inps.length)
    (hl' : i1'.length = inps'.length) :
    ∃ e : {r // ValidRand intModulus c r} ≃ {r // ValidRand intModulus c r}, ∀ r, (e r).1.f0 = r.1.f0 ∧ (e r).1.g0 = r.1.g0 ∧
      view0 intModulus c w' t pre i1' (e r).1 = view0 intModulus c w t pre i1 r.1 := by
  obtain ⟨e, he⟩ := exists_equiv (P := ValidRand intModulus c) (g := fun r => (r.f0, r.g0)) (F := view0 intModulus c w t pre i1)
    (F' := view0 intModulus c w' t pre i1') (W := fun v => ValidView intModulus c v.1 v.2)
    (fun r hr => (views_valid wf hev hrc hx hpre hr hl hl).1) (fun r hr => (views_valid wf hev' hrc hx hpre hr hl' hl').1)
    (fun v a hw => by simpa only [Prod.mk.eta, Prod.ext_iff, and_assoc] using C32_view0 wf hev hl hrc hx hpre a.1 a.2 hw)
    (fun v a hw => by simpa only [Prod.mk.eta, Prod.ext_iff, and_assoc] using C32_view0 wf hev' hl' hrc hx hpre a.1 a.2 hw)
  exact ⟨e, fun r => ⟨congrArg Prod.fst (he r).1, congrArg Prod.snd (he r).1, (he r).2⟩⟩

/-- The same for server 1. -/
theorem view1_equiv {c : Circuit} (wf : c.WF) {inps w inps' w' : List ℤ} {b b' : Bool} (hev : c.eval intModulus inps = some (w, b))
    (hev' : c.eval intModulus inps' = some (w', b')) {t : RootTables} {l : List ℕ}
    (hrc : RootCalls (npow2 c.mulGates.length :: l) t) {x : ℤ} (hx : Canon x intModulus) {pre : CheckerPre}
    (hpre : checkerPre intModulus t (npow2 c.mulGates.length) x = some pre) {i0 i0' : List ℤ} (hl : i0.length = inps.length)
    (hl' : i0'.length = inps'.length) :
    ∃ e : {r // ValidRand intModulus c r} ≃ {r // ValidRand intModulus c r}, ∀ r, (e r).1.f0 = r.1.f0 ∧ (e r).1.g0 = r.1.g0 ∧
      view1 intModulus c w' t pre i0' (e r).1 = view1 intModulus c w t pre i0 r.1 := by
  obtain ⟨e, he⟩ := exists_equiv (P := ValidRand intModulus c) (g := fun r => (r.f0, r.g0)) (F := view1 intModulus c w t pre i0)
    (F' := view1 intModulus c w' t pre i0') (W := fun v => ValidView intModulus c v.1 v.2)
    (fun r hr => (views_valid wf hev hrc hx hpre hr hl hl).2) (fun r hr => (views_valid wf hev' hrc hx hpre hr hl' hl').2)
    (fun v a hw => by simpa only [Prod.mk.eta, Prod.ext_iff, and_assoc] using C32_view1 wf hev hl hrc hx hpre a.1 a.2 hw)
    (fun v a hw => by simpa only [Prod.mk.eta, Prod.ext_iff, and_assoc] using C32_view1 wf hev' hl' hrc hx hpre a.1 a.2 hw)
  exact ⟨e, fun r => ⟨congrArg Prod.fst (he r).1, congrArg Prod.snd (he r).1, (he r).2⟩⟩

/-! ### Masks -/

/-- A mask of the share conversion: a residue modulo the field modulus. -/
abbrev Mask : Type := {w : U64 // w.toNat < intModulus}

instance : Finite Mask := Finite.of_injective (fun b : Mask => (⟨b.1.toNat, b.2⟩ : Fin intModulus)) fun b b' h =>
  Subtype.ext (BitVec.eq_of_toNat_eq (Fin.mk.inj h))

theorem modW_toNat : modW.toNat = intModulus := by decide

theorem redMask (b : Mask) : redMod modW b.1 = b.1 := by
  rw [redMod, if_neg (by decide)]
  apply BitVec.eq_of_toNat_eq
  rw [BitVec.toNat_umod, modW_toNat, Nat.mod_eq_of_lt b.2]

theorem redMod_add (b : Mask) {c : U64} (hc : c.toNat ≤ intModulus) : (redMod modW (b.1 + c)).toNat = (b.1.toNat + c.toNat) % intModulus := by
  have := b.2
  have h2 : intModulus + intModulus < 2 ^ 64 := by decide
  rw [redMod, if_neg (by decide), BitVec.toNat_umod, modW_toNat, BitVec.toNat_add, Nat.mod_eq_of_lt (a := b.1.toNat + c.toNat) (by omega)]

/-- Adding a word to a mask. -/
noncomputable def addMask (c : U64) (hc : c.toNat ≤ intModulus) : Mask ≃ Mask :=
  Equiv.ofBijective (fun b => ⟨redMod modW (b.1 + c), by rw [redMod_add b hc]; exact Nat.mod_lt _ (by decide)⟩) (Finite.injective_iff_bijective.1 (by
    intro b b' h
    have h := congrArg (fun q : Mask => q.1.toNat) h
    simp only [redMod_add _ hc] at h
    have h := Nat.ModEq.add_right_cancel' c.toNat h
    rw [Nat.ModEq, Nat.mod_eq_of_lt b.2, Nat.mod_eq_of_lt b'.2] at h
    exact Subtype.ext (BitVec.eq_of_toNat_eq h)))

/-- The second word of a pair minus the mask (ot.cpp:150-153). -/
def cellAdd (k : ℕ) (v : U64) : U64 := if v % 2#64 ≠ 0#64 then otMax modW - 1#64 <<< k + 1#64 else 1#64 <<< k

theorem cellAdd_le {k : ℕ} (hk : k < 48) (v : U64) : (cellAdd k v).toNat ≤ intModulus := by
  have h1 : ∀ k < 48, (1#64 <<< k).toNat ≤ intModulus ∧ (otMax modW - 1#64 <<< k + 1#64).toNat ≤ intModulus := by decide
  unfold cellAdd
  split
  · exact (h1 k hk).2
  · exact (h1 k hk).1

theorem col_mask_shift (k w : ℕ) (hk : k + w ≤ 48) (x x' y : U64) : ∃ σ : ℕ → Mask ≃ Mask, ∀ (raw : ℕ → Mask) (acc acc' : U64),
    otChoose (senderCol modW (fun t => (raw t).1) k w x acc).1 (valBits w y) =
      otChoose (senderCol modW (fun t => (σ t (raw t)).1) k w x' acc').1 (valBits w y) := by
  induction w generalizing k x x' y with
  | zero => exact ⟨fun _ => Equiv.refl _, fun _ _ _ => rfl⟩
  | succ w ih =>
    obtain ⟨d, hd⟩ := ih (k + 1) (by omega) (x >>> 1) (x' >>> 1) (y >>> 1)
    have l := cellAdd_le (k := k) (by omega) x
    have l' := cellAdd_le (k := k) (by omega) x'
    refine ⟨fun t => if t = k then (if y % 2#64 ≠ 0#64 then (addMask _ l).trans (addMask _ l').symm else Equiv.refl _) else d t, ?_⟩
    intro raw acc acc'
    simp only [senderCol, valBits, otChoose_cons]
    refine List.cons_eq_cons.2 ⟨?_, ?_⟩
    · by_cases hy : y % 2#64 = 0#64
      · simp [hy]
      · have e : addMask _ l' ((addMask _ l').symm (addMask _ l (raw k))) = addMask _ l (raw k) := Equiv.apply_symm_apply _ _
        have e := congrArg Subtype.val e
        simp only [hy, not_false_eq_true, if_true, decide_true, ne_eq, redMask, Equiv.trans_apply]
        simp only [← ne_eq]
        exact e.symm
    · rw [hd raw _ 0#64]
      congr 1
      refine senderCol_congr _ _ _ _ _ _ _ _ fun t ht => ?_
      rw [if_neg (by omega)]

theorem senderCols_congr (m : U64) (raw raw' : ℕ → ℕ → U64) (j : ℕ) (x : List U64) (ws : List ℕ) (h : ∀ i, j ≤ i → ∀ k, raw i k = raw' i k) :
    senderCols m raw j x ws = senderCols m raw' j x ws := by
  induction ws generalizing j x with
  | nil => cases x <;> rfl
  | cons w ws ih =>
    cases x with
    | nil => rfl
    | cons a x =>
      rw [senderCols, senderCols, ih (j + 1) x fun i hi => h i (by omega), show raw j = raw' j from funext (h j le_rfl)]

theorem cols_mask_shift (j : ℕ) (ws : List ℕ) (hw : ∀ w ∈ ws, w ≤ 48) (x x' y : List U64) (hx : x.length = ws.length) (hx' : x'.length = ws.length)
    (hy : y.length = ws.length) : ∃ σ : ℕ → ℕ → Mask ≃ Mask, ∀ raw : ℕ → ℕ → Mask,
    otChoose (senderCols modW (fun j k => (raw j k).1) j x ws).1 (rowBits y ws) =
      otChoose (senderCols modW (fun j k => (σ j k (raw j k)).1) j x' ws).1 (rowBits y ws) := by
  induction ws generalizing j x x' y with
  | nil =>
    refine ⟨fun _ _ => Equiv.refl _, fun _ => ?_⟩
    cases x <;> cases x' <;> simp_all [senderCols]
  | cons w ws ih =>
    cases x with | nil => simp at hx | cons a x => ?_
    cases x' with | nil => simp at hx' | cons a' x' => ?_
    cases y with | nil => simp at hy | cons b y => ?_
    obtain ⟨d, hd⟩ := ih (j + 1) (fun w h => hw w (List.mem_cons_of_mem _ h)) x x' y (by simpa using hx) (by simpa using hx') (by simpa using hy)
    obtain ⟨s, hs⟩ := col_mask_shift 0 w (by have := hw w (List.mem_cons_self ..); omega) a a' b
    refine ⟨fun i => if i = j then s else d i, fun raw => ?_⟩
    simp only [senderCols]
    have hb : rowBits (b :: y) (w :: ws) = valBits w b ++ rowBits y ws := rfl
    rw [hb, otChoose_append _ _ _ _ (by rw [senderCol_length, valBits_length]), otChoose_append _ _ _ _ (by rw [senderCol_length, valBits_length])]
    congr 1
    · simp only [if_true]
      exact hs (raw j) 0#64 0#64
    · rw [hd raw]
      congr 1
      refine congrArg Prod.fst (senderCols_congr _ _ _ _ _ _ fun i hi k => ?_)
      rw [if_neg (by omega)]

theorem otChoose_flatMap {β γ : Type} {f : β → List (U64 × U64)} {g : γ → List Bool} {n : ℕ} : ∀ (L : List β) (M : List γ),
    (∀ a ∈ L, (f a).length = n) → (∀ b ∈ M, (g b).length = n) → L.length = M.length →
    otChoose (L.flatMap f) (M.flatMap g) = (List.zipWith (fun a b => otChoose (f a) (g b)) L M).flatten
  | [], [], _, _, _ => rfl
  | [], _ :: _, _, _, h => by simp at h
  | _ :: _, [], _, _, h => by simp at h
  | a :: L, b :: M, ha, hb, h => by
    rw [List.flatMap_cons, List.flatMap_cons, otChoose_append _ _ _ _ (by rw [ha a (List.mem_cons_self ..), hb b (List.mem_cons_self ..)]),
      otChoose_flatMap L M (fun a h => ha a (List.mem_cons_of_mem _ h)) (fun b h => hb b (List.mem_cons_of_mem _ h)) (by simpa using h)]
    rfl

/-- For any change of server 0's shares there are bijections of its masks under which server 1 gets the same words. -/
theorem words_mask_shift (ws : List ℕ) (hw : ∀ w ∈ ws, w ≤ 48) (V V' Y : ℕ → List U64) (hV : ∀ i, (V i).length = ws.length)
    (hV' : ∀ i, (V' i).length = ws.length) (hY : ∀ i, (Y i).length = ws.length) :
    ∃ σ : ℕ → ℕ → ℕ → Mask ≃ Mask, ∀ (raw : ℕ → ℕ → ℕ → Mask) (R0 R0' R1 : List SnipRow), R0.length = R1.length → R0'.length = R1.length →
      (∀ i r, R0[i]? = some r → r.vals = V i) → (∀ i r, R0'[i]? = some r → r.vals = V' i) → (∀ i r, R1[i]? = some r → r.vals = Y i) →
      convWords ws (fun i j k => (raw i j k).1) R0 R1 = convWords ws (fun i j k => (σ i j k (raw i j k)).1) R0' R1 := by
  choose σ hσ using fun i => cols_mask_shift 0 ws hw (V i) (V' i) (Y i) (hV i) (hV' i) (hY i)
  refine ⟨σ, fun raw R0 R0' R1 h0 h0' e0 e0' e1 => ?_⟩
  have len : ∀ (raw : ℕ → ℕ → ℕ → U64) (R : List SnipRow) (V : ℕ → List U64), (∀ i, (V i).length = ws.length) →
      (∀ i r, R[i]? = some r → r.vals = V i) → ∀ a ∈ otRows raw R, (senderRow modW ws a).1.length = ws.sum := by
    intro raw R V hV e a ha
    obtain ⟨q, hq, rfl⟩ := List.mem_map.1 ha
    refine senderRow_length _ _ _ fun _ => ?_
    rw [← hV q.2, ← e q.2 q.1 (List.mem_zipIdx_iff_getElem?.1 hq)]
  have lenY : ∀ b ∈ R1, (rowBits b.vals ws).length = ws.sum := by
    intro b hb
    obtain ⟨i, hi, rfl⟩ := List.mem_iff_getElem.1 hb
    exact rowBits_length _ _ (by rw [e1 i _ (List.getElem?_eq_getElem hi), hY])
  rw [convWords, convWords, otChoose_flatMap _ _ (len _ R0 V hV e0) lenY (by simpa [otRows] using h0),
    otChoose_flatMap _ _ (len _ R0' V' hV' e0') lenY (by simpa [otRows] using h0')]
  congr 1
  apply List.ext_getElem
  · simp [otRows, h0, h0']
  · intro i a1 a2
    simp only [otRows, List.length_zipWith, List.length_map, List.length_zipIdx] at a1 a2
    simp only [otRows, List.getElem_zipWith, List.getElem_map, List.getElem_zipIdx, senderRow, if_true, zero_add]
    rw [e0 i _ (List.getElem?_eq_getElem (by omega)), e0' i _ (List.getElem?_eq_getElem (by omega)), e1 i _ (List.getElem?_eq_getElem (by omega))]
    exact hσ i (raw i)

end Verif

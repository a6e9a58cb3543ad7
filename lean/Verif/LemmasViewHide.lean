import Verif.LemmasViewMask
import Verif.PropsViewXor
import Verif.PropsLinHonest

/-! # The part common to VAR and LINREG hides the honest clients' values -/

namespace Verif

variable {n : ℕ} {key : Fin n → Bytes}

/-- The draws of a client's packet. -/
abbrev Draws (c : Circuit) : Type := {r : SnipRand // ValidRand intModulus c r}

/-- Honest clients: shares `v0`, `v1` of values that satisfy the circuit. -/
structure HonestVals (c : Circuit) (ws : List ℕ) (ok : SnipRow → Bool) (v0 v1 : Fin n → List U64) (inps w : Fin n → List ℤ) : Prop where
  ok0 : ∀ q, ok ⟨v0 q, zeroPacket c.mulGates.length⟩ = true
  ok1 : ∀ q, ok ⟨v1 q, zeroPacket c.mulGates.length⟩ = true
  len0 : ∀ q, (v0 q).length = ws.length
  len1 : ∀ q, (v1 q).length = ws.length
  len : ∀ q, (inps q).length = ws.length
  val : ∀ q, ∀ j < ws.length,
    ((((v0 q).getD j 0#64 ^^^ (v1 q).getD j 0#64).toNat % 2 ^ ws.getD j 0 : ℕ) : ZMod intModulus) = at0 (inps q) j
  eval : ∀ q, c.eval intModulus (inps q) = some (w q, true)

/-- The rows of honest clients. -/
structure HonestRows (c : Circuit) (t : RootTables) (v0 v1 : Fin n → List U64) (w : Fin n → List ℤ) (r : Fin n → Draws c)
    (f0 f1 : Fin n → SnipRow) : Prop where
  vals0 : ∀ q, (f0 q).vals = v0 q
  vals1 : ∀ q, (f1 q).vals = v1 q
  pks : ∀ q, sharePolynomials intModulus c (w q) t (r q).1 = some ((f0 q).packet, (f1 q).packet)

theorem HonestRows.row {c : Circuit} {ws : List ℕ} {ok : SnipRow → Bool} {v0 v1 : Fin n → List U64} {inps w : Fin n → List ℤ} {t : RootTables}
    {r : Fin n → Draws c} {f0 f1 : Fin n → SnipRow} (hv : HonestVals c ws ok v0 v1 inps w) (h : HonestRows c t v0 v1 w r f0 f1) (q : Fin n) :
    HonestRow c ws t (inps q) (r q).1 (f0 q) (f1 q) := by
  refine ⟨hv.len q, fun j hj => ?_, ⟨w q, hv.eval q, h.pks q⟩, (r q).2⟩
  rw [recVal, h.vals0, h.vals1]
  exact hv.val q j hj

theorem fill_pos {ok : SnipRow → Bool} {A : List (Fin n ⊕ Bytes × SnipRow)} (hA : Arrives key A) (hn : 0 < n) {f : Fin n → SnipRow}
    (hf : ∀ q, ok (f q) = true) : 0 < (admit ok (fill key A f) []).length := by
  refine admit_pos ⟨(key ⟨0, hn⟩, f ⟨0, hn⟩), ?_, hf _⟩
  exact List.mem_map.2 ⟨.inl ⟨0, hn⟩, hA.all _, rfl⟩

/-- Server 0's view. -/
theorem snip_hide0 {c : Circuit} (hc : CircOk c) {x : ℤ} {uses pos : ℕ} {st0 st1 : SnipState} (h0 : SnipOk x uses pos st0)
    (h1 : SnipOk x uses pos st1) (coef : ℕ → ℤ) {ws : List ℕ} (hni : nIn c.gates ≤ ws.length) (hw : ∀ w ∈ ws, w ≤ 48)
    (raw0 raw1 : ℕ → ℕ → ℕ → U64) (junk : ℕ → List U64) (hj : ∀ i, (junk i).length = ws.length) (ok : SnipRow → Bool)
    (hok : ∀ r r' : SnipRow, r.vals = r'.vals → ok r = ok r') (hn : 0 < n)
    {A0 A1 : List (Fin n ⊕ Bytes × SnipRow)} (hA0 : Arrives key A0) (hA1 : Arrives key A1) (hlen : A1.length < 2 ^ 32)
    {v0 v1 v1' : Fin n → List U64} {inps inps' w w' : Fin n → List ℤ} (hv : HonestVals c ws ok v0 v1 inps w)
    (hv' : HonestVals c ws ok v0 v1' inps' w')
    (hsum : ∀ j < ws.length, ∑ q, (at0 (inps q) j : ZMod intModulus) = ∑ q, (at0 (inps' q) j : ZMod intModulus))
    {t : RootTables} {l : List ℕ} (hrc : RootCalls (npow2 c.mulGates.length :: l) t) (K : List Bytes) :
    ∃ e : Fin n → (Draws c ≃ Draws c), (∀ q r, (e q r).1.f0 = r.1.f0 ∧ (e q r).1.g0 = r.1.g0) ∧
      ∀ (r : Fin n → Draws c) (f0 f1 : Fin n → SnipRow), HonestRows c t v0 v1 w r f0 f1 →
      ∃ f1' : Fin n → SnipRow, HonestRows c t v0 v1' w' (fun q => e q (r q)) f0 f1' ∧
      (Keyed (fill key A1 f1) → Keyed (fill key A1 f1') → (∀ e ∈ fill key A0 f0, SnipRowOk c ws.length e.2) →
        (∀ e ∈ fill key A1 f1, SnipRowOk c ws.length e.2) → (∀ e ∈ fill key A1 f1', SnipRowOk c ws.length e.2) →
        ∀ o o' : Map SnipRow, o.Perm (admit ok (fill key A1 f1) []) → o'.Perm (admit ok (fill key A1 f1') []) → o.keys = K → o'.keys = K →
        ∃ a num b z z1 z' z1' v u u', PairW (snipOp0 c coef ws raw0 junk st0 (admit ok (fill key A0 f0) []))
            (snipOp1 c coef ws raw1 st1 (admit ok (fill key A1 f1) []) o) (a, num, z) (b, z1) v u ∧
          PairW (snipOp0 c coef ws raw0 junk st0 (admit ok (fill key A0 f0) []))
            (snipOp1 c coef ws raw1 st1 (admit ok (fill key A1 f1') []) o') (a, num, z') (b, z1') v u' ∧
          b.length = ws.length ∧ ∀ y ∈ b, Canon y intModulus) := by
  have ht := (C02_tables_after_any_history _ _ hrc).1 _ _ rfl
  have hNpos : 0 < npow2 c.mulGates.length := lt_of_le_of_lt (Nat.zero_le _) (npow2_gt _)
  obtain ⟨pre, hpre, -⟩ := checkerPre_ok hNpos ht h0.canon
  set zp := zeroPacket c.mulGates.length
  have lm : ∀ q, (mask0 ws (raw0 (K.idxOf (key q))) (v0 q)).length = ws.length := fun q => mask0_length _ (hv.len0 q)
  choose e he using fun q => view0_equiv hc.wf (hv.eval q) (hv'.eval q) hrc h0.canon hpre
    (i1 := missing (inps q) (mask0 ws (raw0 (K.idxOf (key q))) (v0 q))) (i1' := missing (inps' q) (mask0 ws (raw0 (K.idxOf (key q))) (v0 q)))
    (by simp [missing]) (by simp [missing])
  refine ⟨e, fun q r => ⟨(he q r).1, (he q r).2.1⟩, fun r f0 f1 hf => ?_⟩
  have ex : ∀ q, ∃ p1, sharePolynomials intModulus c (w' q) t (e q (r q)).1 = some ((f0 q).packet, p1) := by
    intro q
    have h2 := (he q (r q)).2.2
    obtain ⟨v, hvw, -⟩ := (views_valid hc.wf (hv.eval q) hrc h0.canon hpre (r q).2 (i0 := inps q)
      (i1 := missing (inps q) (mask0 ws (raw0 (K.idxOf (key q))) (v0 q))) rfl (by simp [missing])).1
    rw [hvw] at h2
    rw [view0, hf.pks q, Option.bind_some, Option.map_eq_some_iff] at hvw
    obtain ⟨k, -, rfl⟩ := hvw
    rw [view0, Option.bind_eq_some_iff] at h2
    obtain ⟨pks, hp, h2⟩ := h2
    rw [Option.map_eq_some_iff] at h2
    obtain ⟨k', -, h2⟩ := h2
    rw [Prod.mk.injEq] at h2
    exact ⟨pks.2, hp.trans (congrArg some (Prod.ext h2.1 rfl))⟩
  choose p1 hp1 using ex
  have hf' : HonestRows c t v0 v1' w' (fun q => e q (r q)) f0 (fun q => ⟨v1' q, p1 q⟩) := ⟨hf.vals0, fun _ => rfl, hp1⟩
  refine ⟨fun q => ⟨v1' q, p1 q⟩, hf', fun k1 k1' r0 r1 r1' o o' hp hp' K1 K1' => ?_⟩
  have o0 : ∀ q, ok (f0 q) = true := fun q => by rw [hok (f0 q) ⟨v0 q, zp⟩ (hf.vals0 q)]; exact hv.ok0 q
  have o1 : ∀ q, ok (f1 q) = true := fun q => by rw [hok (f1 q) ⟨v1 q, zp⟩ (hf.vals1 q)]; exact hv.ok1 q
  have o1' : ∀ q, ok ⟨v1' q, p1 q⟩ = true := fun q => by rw [hok ⟨v1' q, p1 q⟩ ⟨v1' q, zp⟩ rfl]; exact hv'.ok1 q
  refine snip_same0 hc h0 h1 coef hni hw raw0 raw1 junk hj ok _ r0 hA0 hA1 rfl o0 o1 o1' k1 k1' r1 r1' hlen o o' hp hp' (K1.trans K1'.symm)
    (by rw [hp.length_eq]; exact fill_pos hA1 hn o1) hrc hpre (fun q => hf.row hv q) (fun q => hf'.row hv' q) ?_ hsum
  intro q u u' e1 e2
  rw [hv.eval q] at e1; cases e1
  rw [hv'.eval q] at e2; cases e2
  rw [K1, hf.vals0 q]
  exact (he q (r q)).2.2.symm

/-- The values at position `i`, of the right length. -/
def valsAt (k : ℕ) (R : List SnipRow) (i : ℕ) : List U64 :=
  if ((R[i]?).elim [] (·.vals)).length = k then (R[i]?).elim [] (·.vals) else List.replicate k 0#64

theorem valsAt_length (k : ℕ) (R : List SnipRow) (i : ℕ) : (valsAt k R i).length = k := by
  unfold valsAt; split
  · assumption
  · simp

/-- Server 1's view. -/
theorem snip_hide1 {c : Circuit} (hc : CircOk c) {x : ℤ} {uses pos : ℕ} {st0 st1 : SnipState} (h0 : SnipOk x uses pos st0)
    (h1 : SnipOk x uses pos st1) (coef : ℕ → ℤ) {ws : List ℕ} (hni : nIn c.gates ≤ ws.length) (hw : ∀ w ∈ ws, w ≤ 48)
    (raw1 : ℕ → ℕ → ℕ → U64) (junk : ℕ → List U64) (hj : ∀ i, (junk i).length = ws.length) (ok : SnipRow → Bool)
    (hok : ∀ r r' : SnipRow, r.vals = r'.vals → ok r = ok r') (hn : 0 < n)
    {A0 A1 : List (Fin n ⊕ Bytes × SnipRow)} (hA0 : Arrives key A0) (hA1 : Arrives key A1) (hlen : A1.length < 2 ^ 32)
    {v0 v0' v1 : Fin n → List U64} {inps inps' w w' : Fin n → List ℤ} (hv : HonestVals c ws ok v0 v1 inps w)
    (hv' : HonestVals c ws ok v0' v1 inps' w')
    {t : RootTables} {l : List ℕ} (hrc : RootCalls (npow2 c.mulGates.length :: l) t) (K : List Bytes) :
    ∃ σ : ℕ → ℕ → ℕ → (Mask ≃ Mask), ∀ raw0 : ℕ → ℕ → ℕ → Mask,
    ∃ e : Fin n → (Draws c ≃ Draws c), (∀ q r, (e q r).1.f0 = r.1.f0 ∧ (e q r).1.g0 = r.1.g0) ∧
      ∀ (r : Fin n → Draws c) (f0 f1 : Fin n → SnipRow), HonestRows c t v0 v1 w r f0 f1 →
      ∃ f0' : Fin n → SnipRow, HonestRows c t v0' v1 w' (fun q => e q (r q)) f0' f1 ∧
      (Keyed (fill key A1 f1) → (∀ e ∈ fill key A0 f0, SnipRowOk c ws.length e.2) →
        (∀ e ∈ fill key A0 f0', SnipRowOk c ws.length e.2) → (∀ e ∈ fill key A1 f1, SnipRowOk c ws.length e.2) →
        ∀ o : Map SnipRow, o.Perm (admit ok (fill key A1 f1) []) → o.keys = K →
        ∃ a a' b z z1 z' z1' v v' u,
          PairW (snipOp0 c coef ws (fun i j k => (raw0 i j k).1) junk st0 (admit ok (fill key A0 f0) []))
            (snipOp1 c coef ws raw1 st1 (admit ok (fill key A1 f1) []) o) (a, z) (b, z1) v u ∧
          PairW (snipOp0 c coef ws (fun i j k => (σ i j k (raw0 i j k)).1) junk st0 (admit ok (fill key A0 f0') []))
            (snipOp1 c coef ws raw1 st1 (admit ok (fill key A1 f1) []) o) (a', z') (b, z1') v' u ∧
          b.length = ws.length ∧ ∀ y ∈ b, Canon y intModulus) := by
  have ht := (C02_tables_after_any_history _ _ hrc).1 _ _ rfl
  have hNpos : 0 < npow2 c.mulGates.length := lt_of_le_of_lt (Nat.zero_le _) (npow2_gt _)
  obtain ⟨pre, hpre, -⟩ := checkerPre_ok hNpos ht h0.canon
  set zp := zeroPacket c.mulGates.length
  set Z0 := rows0 c.mulGates.length (admit ok (fill key A0 fun q => ⟨v0 q, zp⟩) []) junk K with hZ0
  set Z0' := rows0 c.mulGates.length (admit ok (fill key A0 fun q => ⟨v0' q, zp⟩) []) junk K with hZ0'
  set Z1 := K.map fun k => (firstOf ok (fill key A1 fun q => ⟨v1 q, zp⟩) k).getD ⟨[], zp⟩ with hZ1
  obtain ⟨σ, hσ⟩ := words_mask_shift ws hw (valsAt ws.length Z0) (valsAt ws.length Z0') (valsAt ws.length Z1) (valsAt_length _ _)
    (valsAt_length _ _) (valsAt_length _ _)
  refine ⟨σ, fun raw0 => ?_⟩
  set m0 : Fin n → List ℤ := fun q => mask0 ws (fun j k => (raw0 (K.idxOf (key q)) j k).1) (v0 q) with hm0
  set m0' : Fin n → List ℤ := fun q => mask0 ws (fun j k => (σ (K.idxOf (key q)) j k (raw0 (K.idxOf (key q)) j k)).1) (v0' q) with hm0'
  choose e he using fun q => view1_equiv hc.wf (hv.eval q) (hv'.eval q) hrc h0.canon hpre (i0 := m0 q) (i0' := m0' q)
    (by rw [hm0, hv.len q]; exact mask0_length _ (hv.len0 q)) (by rw [hm0', hv'.len q]; exact mask0_length _ (hv'.len0 q))
  refine ⟨e, fun q r => ⟨(he q r).1, (he q r).2.1⟩, fun r f0 f1 hf => ?_⟩
  have ex : ∀ q, ∃ p0, sharePolynomials intModulus c (w' q) t (e q (r q)).1 = some (p0, (f1 q).packet) := by
    intro q
    have h2 := (he q (r q)).2.2
    obtain ⟨v, hvw, -⟩ := (views_valid hc.wf (hv.eval q) hrc h0.canon hpre (r q).2 (i1 := inps q)
      (i0 := m0 q) (by rw [hm0, hv.len q]; exact mask0_length _ (hv.len0 q)) rfl).2
    rw [hvw] at h2
    rw [view1, hf.pks q, Option.bind_some, Option.map_eq_some_iff] at hvw
    obtain ⟨k, -, rfl⟩ := hvw
    rw [view1, Option.bind_eq_some_iff] at h2
    obtain ⟨pks, hp, h2⟩ := h2
    rw [Option.map_eq_some_iff] at h2
    obtain ⟨k', -, h2⟩ := h2
    rw [Prod.mk.injEq] at h2
    exact ⟨pks.1, hp.trans (congrArg some (Prod.ext rfl h2.1))⟩
  choose p0 hp0 using ex
  have hf' : HonestRows c t v0' v1 w' (fun q => e q (r q)) (fun q => ⟨v0' q, p0 q⟩) f1 := ⟨fun _ => rfl, hf.vals1, hp0⟩
  refine ⟨fun q => ⟨v0' q, p0 q⟩, hf', fun k1 r0 r0' r1 o hp K1 => ?_⟩
  have o0 : ∀ q, ok (f0 q) = true := fun q => by rw [hok (f0 q) ⟨v0 q, zp⟩ (hf.vals0 q)]; exact hv.ok0 q
  have o0' : ∀ q, ok ⟨v0' q, p0 q⟩ = true := fun q => by rw [hok ⟨v0' q, p0 q⟩ ⟨v0' q, zp⟩ rfl]; exact hv'.ok0 q
  have o1 : ∀ q, ok (f1 q) = true := fun q => by rw [hok (f1 q) ⟨v1 q, zp⟩ (hf.vals1 q)]; exact hv.ok1 q
  have hKl : K.length = o.length := by rw [← K1]; simp [Map.keys]
  -- the rows have the values used for the shift
  have at0r : ∀ (f g : Fin n → SnipRow), (∀ q, ok (f q) = true) → (∀ q, ok (g q) = true) → (∀ q, (f q).vals = (g q).vals) →
      (∀ e ∈ fill key A0 f, SnipRowOk c ws.length e.2) → ∀ i r, (rows0 c.mulGates.length (admit ok (fill key A0 f) []) junk K)[i]? = some r →
      r.vals = valsAt ws.length (rows0 c.mulGates.length (admit ok (fill key A0 g) []) junk K) i := by
    intro f g hfo hgo hfg hrow i r hi
    have hlen := (rows0_ok hj hrow K r (List.mem_of_getElem? hi)).vals
    obtain ⟨hil, -⟩ := List.getElem?_eq_some_iff.1 hi
    have hil : i < K.length := by simpa [rows0] using hil
    have hk : K[i]? = some K[i] := List.getElem?_eq_getElem _
    have e2 : ((rows0 c.mulGates.length (admit ok (fill key A0 g) []) junk K)[i]?).elim [] (·.vals) = r.vals := by
      rw [rows0_at hk] at hi ⊢
      by_cases hq : ∃ q, key q = K[i]
      · obtain ⟨q, hq⟩ := hq
        rw [← hq, firstOf_honest hA0 q (hfo q)] at hi
        rw [← hq, firstOf_honest hA0 q (hgo q)]
        cases hi
        exact (hfg q).symm
      · rw [firstOf_other A0 f g fun q h => hq ⟨q, h⟩] at hi
        rw [hi]; rfl
    rw [valsAt, e2, if_pos hlen]
  have at1r : ∀ i r, (o.map (·.2))[i]? = some r → r.vals = valsAt ws.length Z1 i := by
    intro i r hi
    have hlen := (rows1_ok r1 hp r (List.mem_of_getElem? hi)).vals
    obtain ⟨hil, -⟩ := List.getElem?_eq_some_iff.1 hi
    have hil : i < K.length := by rw [hKl]; simpa using hil
    have hk : K[i]? = some K[i] := List.getElem?_eq_getElem _
    have e2 : (Z1[i]?).elim [] (·.vals) = r.vals := by
      have a1 := (rows1_at hp (by rw [K1]; exact hk)).1
      rw [hZ1, List.getElem?_map, hk, Option.map_some]
      rw [a1] at hi
      by_cases hq : ∃ q, key q = K[i]
      · obtain ⟨q, hq⟩ := hq
        rw [← hq, firstOf_honest hA1 q (o1 q)] at hi
        rw [← hq, firstOf_honest hA1 q (hv.ok1 q)]
        cases hi
        exact (hf.vals1 q).symm
      · rw [firstOf_other A1 f1 (fun q => ⟨v1 q, zp⟩) fun q h => hq ⟨q, h⟩] at hi
        rw [hi]; rfl
    rw [valsAt, e2, if_pos hlen]
  have hwords := hσ raw0 (rows0 c.mulGates.length (admit ok (fill key A0 f0) []) junk K)
    (rows0 c.mulGates.length (admit ok (fill key A0 fun q => ⟨v0' q, p0 q⟩) []) junk K) (o.map (·.2))
    (by simp [rows0, hKl]) (by simp [rows0, hKl]) (at0r _ _ o0 hv.ok0 hf.vals0 r0) (at0r _ _ o0' hv'.ok0 (fun _ => rfl) r0') at1r
  refine snip_same1 hc h0 h1 coef hni hw _ _ raw1 junk hj ok _ r1 k1 (by simpa [fill] using hlen) hA0 hA1 rfl o0 o0' o1 r0 r0' o hp
    (by rw [hp.length_eq]; exact fill_pos hA1 hn o1) hrc hpre (fun q => hf.row hv q) (fun q => hf'.row hv' q) (by rw [K1]; exact hwords) ?_
  intro q u u' e1 e2
  rw [hv.eval q] at e1; cases e1
  rw [hv'.eval q] at e2; cases e2
  rw [K1, hf.vals0 q]
  exact (he q (r q)).2.2.symm

end Verif

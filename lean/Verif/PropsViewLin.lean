import Verif.PropsViewVar

/-! # C64: what each server learns in LINREG -/

namespace Verif

variable {n : ℕ} {key : Fin n → Bytes}

/-- The draws of a client with features `x`, label `y` and one drawn word per field. -/
def linMk (d : ℕ) (x : List U64) (y : U64) (S : ℕ → U64) : LinDraws :=
  ⟨x, (List.range (d - 1)).map S, (List.range (numQuad d)).map fun j => S (d + j), (List.range (d - 1)).map fun j => S (d + numQuad d + j), y, S (d - 1)⟩

/-- Specification: features, label, products of two features, features times label. -/
def linFields (nbits : ℕ) (x : List U64) (y : U64) : List ℕ :=
  let X := x.map fun v => v.toNat % 2 ^ nbits
  let Y := y.toNat % 2 ^ nbits
  X ++ [Y] ++ pairProducts X ++ X.map fun v => Y * v

/-- What is needed of a client: the wires of its circuit and the form of its rows. -/
structure LinWires (d nbits : ℕ) (c : Circuit) (x : List U64) (y : U64) (w : List ℤ) : Prop where
  eval : c.eval intModulus ((linFields nbits x y).map fun v : ℕ => (v : ℤ)) = some (w, true)
  len : (linFields nbits x y).length = numFields d
  rows : ∀ S pk pk', linFits nbits (linRow0 nbits (linMk d x y S) pk) = true ∧ linFits nbits (linRow1 nbits (linMk d x y S) pk) = true ∧
    (PacketOk c pk → LinRowOk c d (linRow0 nbits (linMk d x y S) pk)) ∧ (PacketOk c pk → LinRowOk c d (linRow1 nbits (linMk d x y S) pk)) ∧
    (linRec (linRow0 nbits (linMk d x y S) pk) (linRow1 nbits (linMk d x y S) pk')).all = linFields nbits x y
  client : ∀ S t r, clientLin d nbits (linMk d x y S) t r =
    (sharePolynomials intModulus c w t r).map fun pk => (linRow0 nbits (linMk d x y S) pk.1, linRow1 nbits (linMk d x y S) pk.2)

theorem lin_wires {d : ℕ} (hd : 1 ≤ d) (hsm : linMul d < 2 ^ 18) {nbits : ℕ} (hb : nbits ≤ 31) {c : Circuit}
    (hc : checkLinReg intModulus d = some c) (x : List U64) (hx : x.length = d - 1) (y : U64) : ∃ w, LinWires d nbits c x y w := by
  obtain ⟨c', e', hcok, hmul, -⟩ := linCircuit hd hsm
  rw [hc] at e'; cases e'
  obtain ⟨t, ht⟩ := C30_sizes (c := c) (by rw [hmul]; exact hsm) [] _ .start
  rw [hmul] at ht
  have hsz : ∀ S, LinClient.Sized d ⟨List.replicate pkLength 0#8, linMk d x y S, ⟨0, 0, List.replicate (npow2 c.mulGates.length) 0, 0, 0, 0,
      List.replicate c.mulGates.length 0, 0, 0, 0, 0, 0⟩⟩ := fun S => ⟨by simp, hx, by simp [linMk], by simp [linMk], by simp [linMk]⟩
  have main := fun S => clientLin_full hd hsm hb hc ht (hsz S) (zeroDraws c)
  obtain ⟨r0, r1, w, -, -, -, -, -, hrec, hev, -, -⟩ := main fun _ => 0#64
  have hall : (linRec r0 r1).all = linFields nbits x y := by rw [hrec]; rfl
  rw [hall] at hev
  have rows : ∀ S, linFits nbits (linRow0 nbits (linMk d x y S) (zeroPacket 0)) = true ∧ linFits nbits (linRow1 nbits (linMk d x y S) (zeroPacket 0)) = true ∧
      ((linRow0 nbits (linMk d x y S) (zeroPacket 0)).x.length = d - 1 ∧ (linRow0 nbits (linMk d x y S) (zeroPacket 0)).x2.length = numQuad d ∧
        (linRow0 nbits (linMk d x y S) (zeroPacket 0)).xy.length = d - 1) ∧
      ((linRow1 nbits (linMk d x y S) (zeroPacket 0)).x.length = d - 1 ∧ (linRow1 nbits (linMk d x y S) (zeroPacket 0)).x2.length = numQuad d ∧
        (linRow1 nbits (linMk d x y S) (zeroPacket 0)).xy.length = d - 1) ∧
      (linRec (linRow0 nbits (linMk d x y S) (zeroPacket 0)) (linRow1 nbits (linMk d x y S) (zeroPacket 0))).all = linFields nbits x y ∧
      ∀ t r, clientLin d nbits (linMk d x y S) t r =
        (sharePolynomials intModulus c w t r).map fun pk => (linRow0 nbits (linMk d x y S) pk.1, linRow1 nbits (linMk d x y S) pk.2) := by
    intro S
    obtain ⟨r0, r1, w', he, f0, f1, l0, l1, hrec, hev', -, hex⟩ := main S
    have hall : (linRec r0 r1).all = linFields nbits x y := by rw [hrec]; rfl
    rw [hall, hev] at hev'
    obtain rfl : w = w' := congrArg Prod.fst (Option.some.inj hev')
    have hex := hex (linMk d x y S) rfl rfl
    rw [hex, Option.map_eq_some_iff] at he
    obtain ⟨pk, -, he⟩ := he
    cases he
    exact ⟨f0, f1, l0, l1, hall, hex⟩
  refine ⟨w, hev, ?_, fun S pk pk' => ?_, fun S t r => (rows S).2.2.2.2.2 t r⟩
  · simp only [linFields, List.length_append, List.length_map, List.length_singleton, pairProducts_length, hx, numFields_eq hd]
    unfold numQuad
    omega
  · obtain ⟨f0, f1, l0, l1, ha, -⟩ := rows S
    exact ⟨f0, f1, fun h => ⟨l0.1, l0.2.1, l0.2.2, h⟩, fun h => ⟨l1.1, l1.2.1, l1.2.2, h⟩, ha⟩

/-- The flat values of the rows. -/
def linV0 (d nbits : ℕ) (x : List U64) (y : U64) (S : ℕ → U64) : List U64 := (linRow0 nbits (linMk d x y S) (zeroPacket 0)).flat.vals
def linV1 (d nbits : ℕ) (x : List U64) (y : U64) (S : ℕ → U64) : List U64 := (linRow1 nbits (linMk d x y S) (zeroPacket 0)).flat.vals

theorem linWidths_le {d nbits : ℕ} (hb : nbits ≤ 24) : ∀ w ∈ linWidths d nbits, w ≤ 48 := by
  intro w hw
  obtain ⟨i, -, rfl⟩ := List.mem_map.1 hw
  split_ifs <;> omega

theorem linWidths_length (d nbits : ℕ) : (linWidths d nbits).length = numFields d := by simp [linWidths]

theorem lin_honest {d : ℕ} (hd : 1 ≤ d) {nbits : ℕ} {c : Circuit} (x : Fin n → List U64) (y : Fin n → U64) (S : Fin n → ℕ → U64)
    {w : Fin n → List ℤ} (hw : ∀ i, LinWires d nbits c (x i) (y i) (w i)) :
    HonestVals c (linWidths d nbits) (fun s => linFits nbits (unflat d s)) (fun i => linV0 d nbits (x i) (y i) (S i))
      (fun i => linV1 d nbits (x i) (y i) (S i)) (fun i => (linFields nbits (x i) (y i)).map fun v : ℕ => (v : ℤ)) w := by
  have zp := zeroPacket_ok c
  have o0 := fun i => ((hw i).rows (S i) (zeroPacket c.mulGates.length) (zeroPacket 0)).2.2.1 zp
  have o1 := fun i => ((hw i).rows (S i) (zeroPacket c.mulGates.length) (zeroPacket 0)).2.2.2.1 zp
  refine ⟨fun i => ?_, fun i => ?_, fun i => ?_, fun i => ?_, fun i => ?_, fun i j hj => ?_, fun i => (hw i).eval⟩
  · have := unflat_flat hd (o0 i)
    show linFits nbits (unflat d (linRow0 nbits (linMk d (x i) (y i) (S i)) (zeroPacket c.mulGates.length)).flat) = true
    rw [this]
    exact ((hw i).rows (S i) _ (zeroPacket 0)).1
  · have := unflat_flat hd (o1 i)
    show linFits nbits (unflat d (linRow1 nbits (linMk d (x i) (y i) (S i)) (zeroPacket c.mulGates.length)).flat) = true
    rw [this]
    exact ((hw i).rows (S i) _ (zeroPacket 0)).2.1
  · rw [linWidths_length]; exact (flat_length hd (o0 i) :)
  · rw [linWidths_length]; exact (flat_length hd (o1 i) :)
  · rw [linWidths_length, List.length_map, (hw i).len]
  · rw [linWidths_length] at hj
    have h := recVal_lin hd (o0 i) (o1 i) ((hw i).rows (S i) _ (zeroPacket 0)).1 ((hw i).rows (S i) _ (zeroPacket 0)).2.1 j hj
    rw [((hw i).rows (S i) _ _).2.2.2.2] at h
    have h' : ((linV0 d nbits (x i) (y i) (S i)).getD j 0#64 ^^^ (linV1 d nbits (x i) (y i) (S i)).getD j 0#64).toNat %
        2 ^ (linWidths d nbits).getD j 0 = (linFields nbits (x i) (y i)).getD j 0 := h
    rw [h']
    have hj' : j < (linFields nbits (x i) (y i)).length := by rw [(hw i).len]; exact hj
    simp [at0, List.getD_eq_getElem?_getD, List.getElem?_eq_getElem hj']

/-- The rows that the clients send. -/
theorem lin_rows {d : ℕ} {nbits : ℕ} {c : Circuit} (hcok : CircOk c) (x : Fin n → List U64) (y : Fin n → U64)
    (S : Fin n → ℕ → U64) {w : Fin n → List ℤ} (hw : ∀ i, LinWires d nbits c (x i) (y i) (w i)) {t : RootTables} {l : List ℕ}
    (hrc : RootCalls (npow2 c.mulGates.length :: l) t) (r : Fin n → Draws c) :
    (∃ f0 f1, HonestRows c t (fun i => linV0 d nbits (x i) (y i) (S i)) (fun i => linV1 d nbits (x i) (y i) (S i)) w r f0 f1) ∧
    ∀ f0 f1, HonestRows c t (fun i => linV0 d nbits (x i) (y i) (S i)) (fun i => linV1 d nbits (x i) (y i) (S i)) w r f0 f1 →
      (∀ i, clientLin d nbits (linMk d (x i) (y i) (S i)) t (r i).1 =
        some (linRow0 nbits (linMk d (x i) (y i) (S i)) (f0 i).packet, linRow1 nbits (linMk d (x i) (y i) (S i)) (f1 i).packet)) ∧
      (∀ i, (linRow0 nbits (linMk d (x i) (y i) (S i)) (f0 i).packet).flat = f0 i) ∧
      ∀ i, (linRow1 nbits (linMk d (x i) (y i) (S i)) (f1 i).packet).flat = f1 i := by
  have ht := (C02_tables_after_any_history _ _ hrc).1 _ _ rfl
  constructor
  · have : ∀ i, ∃ pk, sharePolynomials intModulus c (w i) t (r i).1 = some pk := by
      intro i
      have hev := (hw i).eval
      rw [Circuit.eval, Option.bind_eq_some_iff] at hev
      obtain ⟨w', hev, hz⟩ := hev
      rw [Option.map_eq_some_iff] at hz
      obtain ⟨zs, -, hz2⟩ := hz
      obtain rfl : w' = w i := congrArg Prod.fst hz2
      obtain ⟨hvl, -, hform, -⟩ := client_form intModulus_two_ne hcok.wf (evalGates_all hev).1 ht (r i).1.f0 (r i).1.g0
      exact ⟨_, hform (r i).1 rfl rfl⟩
    choose pk hpk using this
    exact ⟨fun i => ⟨_, (pk i).1⟩, fun i => ⟨_, (pk i).2⟩, fun _ => rfl, fun _ => rfl, hpk⟩
  · intro f0 f1 h
    refine ⟨fun i => ?_, fun i => ?_, fun i => ?_⟩
    · rw [(hw i).client, h.pks i, Option.map_some]
    · show (⟨linV0 d nbits (x i) (y i) (S i), (f0 i).packet⟩ : SnipRow) = f0 i
      rw [← h.vals0 i]
    · show (⟨linV1 d nbits (x i) (y i) (S i), (f1 i).packet⟩ : SnipRow) = f1 i
      rw [← h.vals1 i]

/-- The arrivals with flat rows. -/
def flatA (A : List (Fin n ⊕ Bytes × LinRow)) : List (Fin n ⊕ Bytes × SnipRow) := A.map (Sum.map id fun e => (e.1, e.2.flat))

theorem fill_flat (A : List (Fin n ⊕ Bytes × LinRow)) (g : Fin n → LinRow) {f : Fin n → SnipRow} (h : ∀ i, (g i).flat = f i) :
    fill key (flatA A) f = (fill key A g).map fun e => (e.1, e.2.flat) := by
  unfold fill flatA
  rw [List.map_map, List.map_map]
  refine List.map_congr_left fun a _ => ?_
  rcases a with i | e
  · simp [h]
  · rfl

theorem arrives_flat {A : List (Fin n ⊕ Bytes × LinRow)} (h : Arrives key A) : Arrives key (flatA A) :=
  ⟨h.inj, fun i => List.mem_map.2 ⟨.inl i, h.all i, rfl⟩, fun e he i => by
    obtain ⟨a, ha, e'⟩ := List.mem_map.1 he
    rcases a with j | a
    · cases e'
    · cases e'; exact h.others a ha i⟩

/-- The sums that server 1 sends. -/
theorem lin_tail {d : ℕ} (hd : 1 ≤ d) {b : List ℤ} (hl : b.length = numFields d) (hc : ∀ y ∈ b, Canon y intModulus) (total : ℕ)
    (a : List ℤ × ℕ × SnipState) (z1 : SnipState) : ∃ r, PairW ((rdLinSums d).toProc.bind fun b =>
        if belowThreshold a.2.1 total then .ret ((Ret.invalid : Ret (Option (List ℚ))), a.2.2)
        else (Proc.ofOption (solveLinReg d (BitVec.ofNat 64 a.2.1 :: addOwn a.1 0 b.1 ++ addOwn a.1 d b.2.2.1)
          (addOwn a.1 (d - 1) [b.2.1] ++ addOwn a.1 (d + numQuad d) b.2.2.2))).bind fun r => .ret (.ans r, a.2.2))
      ((Proc.putOpt (encFmpzs b)).bind fun _ => Proc.ret ((Ret.noAns : Ret (Option (List ℚ))), z1)) r (Ret.noAns, z1)
      (seenBytes ((encFmpzs b).getD [])) [] := by
  have hnf := numFields_eq hd
  obtain ⟨bx, y, bx2, bxy, hbe, m1, m2, m3⟩ := split_sums hd hl
  rw [encFmpzs_of_fits _ fun z hz => fits_canon (hc z hz), hbe]
  obtain ⟨r, hr⟩ := solve_total hd (x := BitVec.ofNat 64 a.2.1 :: addOwn a.1 0 bx ++ addOwn a.1 d bx2)
    (y := addOwn a.1 (d - 1) [y] ++ addOwn a.1 (d + numQuad d) bxy) (by simp [addOwn]; omega) (by simp [addOwn]; omega)
  refine ⟨if belowThreshold a.2.1 total then (.invalid, a.2.2) else (.ans r, a.2.2), ?_⟩
  refine ((PairW.send10 (reads_linSums m1 m2 m3 fun z hz => fits_canon (hc z (by rw [hbe]; exact hz)))).bind (w0 := []) (w1 := []) ?_).cast rfl rfl
    (List.append_nil _) rfl
  simp only [hr, Proc.ofOption, Proc.bind]
  split
  · exact PairW.ret _ _
  · exact PairW.ret _ _

/-- The degree read from the stream. -/
theorem lin_degree {d : ℕ} (hsm : linMul d < 2 ^ 18) : (BitVec.ofNat 64 d).toNat = d := by
  rw [BitVec.toNat_ofNat, Nat.mod_eq_of_lt]
  have : d - 1 ≤ linMul d := by unfold linMul; omega
  omega

/-- C64 for LINREG, server 0: as for VAR, if the sums of all fields are the same. -/
theorem C64_lin_server0 {d : ℕ} (hd : 1 ≤ d) (hsm : linMul d < 2 ^ 18) {nbits : ℕ} (hb : nbits ≤ 24) (hn : 0 < n) {c : Circuit}
    (hc : checkLinReg intModulus d = some c) {A0 A1 : List (Fin n ⊕ Bytes × LinRow)}
    (hA0 : Arrives key A0) (hA1 : Arrives key A1) (hlen : A1.length < 2 ^ 32) (x x' : Fin n → List U64) (y y' : Fin n → U64)
    (hx : ∀ i, (x i).length = d - 1) (hx' : ∀ i, (x' i).length = d - 1) (S : Fin n → ℕ → U64)
    (hsum : ∀ j < numFields d, ∑ i, (linFields nbits (x i) (y i)).getD j 0 ≡ ∑ i, (linFields nbits (x' i) (y' i)).getD j 0 [MOD intModulus])
    {t : RootTables} {l : List ℕ} (hrc : RootCalls (npow2 (linMul d) :: l) t) {X : ℤ} {uses pos : ℕ} {st0 st1 : SnipState}
    (hs0 : SnipOk X uses pos st0) (hs1 : SnipOk X uses pos st1) (coef : ℕ → ℤ) (raw0 raw1 : ℕ → ℕ → ℕ → U64) (u : ℕ → ℕ → U64)
    (ord : Map LinRow → Map LinRow) (ho : IsOrder ord) (hby : ByKeys ord) :
    ∃ e : Fin n → (Draws c ≃ Draws c), (∀ i r, (e i r).1.f0 = r.1.f0 ∧ (e i r).1.g0 = r.1.g0) ∧
    ∀ r : Fin n → Draws c, ∃ f0 f1 f1' : Fin n → LinRow,
      (∀ i, clientLin d nbits (linMk d (x i) (y i) (S i)) t (r i).1 = some (f0 i, f1 i)) ∧
      (∀ i, clientLin d nbits (linMk d (x' i) (y' i) (S i)) t (e i (r i)).1 = some (f0 i, f1' i)) ∧
      ∀ s0 s1 s1', LinStream d A0.length s0 (fill key A0 f0) → LinStream d A1.length s1 (fill key A1 f1) →
        LinStream d A1.length s1' (fill key A1 f1') → ∃ v,
        Sees0 (linOp0 nbits A0.length s0 coef raw0 u st0) (linOp1 nbits A1.length s1 coef raw1 st1 ord) v ∧
        Sees0 (linOp0 nbits A0.length s0 coef raw0 u st0) (linOp1 nbits A1.length s1' coef raw1 st1 ord) v := by
  obtain ⟨c', e', hcok, hmul, hzero, hin, -⟩ := linCircuit hd hsm
  rw [hc] at e'; cases e'
  choose w hw using fun i => lin_wires hd hsm (by omega : nbits ≤ 31) hc (x i) (hx i) (y i)
  choose w' hw' using fun i => lin_wires hd hsm (by omega : nbits ≤ 31) hc (x' i) (hx' i) (y' i)
  have hv := lin_honest hd x y S hw
  have hv' := lin_honest hd x' y' S hw'
  have hok : ∀ r r' : SnipRow, r.vals = r'.vals → linFits nbits (unflat d r) = linFits nbits (unflat d r') := fun r r' h => by
    obtain ⟨v, p⟩ := r
    obtain ⟨v', p'⟩ := r'
    cases h; rfl
  rw [← hmul] at hrc
  obtain ⟨e, he, H⟩ := snip_hide0 hcok hs0 hs1 coef (ws := linWidths d nbits) (by rw [hin, linWidths_length]) (linWidths_le hb) raw0 raw1
    (linJunk d u) (by intro i; rw [linWidths_length]; simp [linJunk]) (fun s => linFits nbits (unflat d s)) hok hn (arrives_flat hA0)
    (arrives_flat hA1) (by simpa [flatA] using hlen) hv hv' (by
      intro j hj
      rw [linWidths_length] at hj
      have h1 := (ZMod.natCast_eq_natCast_iff _ _ _).2 (hsum j hj)
      rw [Nat.cast_sum, Nat.cast_sum] at h1
      have : ∀ (x : List U64) (y : U64), ((at0 ((linFields nbits x y).map fun v : ℕ => (v : ℤ)) j : ℤ) : ZMod intModulus) =
          (((linFields nbits x y).getD j 0 : ℕ) : ZMod intModulus) := by
        intro x y
        simp only [at0, List.getD_eq_getElem?_getD, List.getElem?_map]
        cases (linFields nbits x y)[j]? <;> simp
      simpa only [this] using h1) (t := t) (l := l) hrc
    (ord (admit (linFits nbits) (fill key A1 fun i => linRow1 nbits (linMk d (x i) (y i) (S i)) (zeroPacket 0)) [])).keys
  refine ⟨e, he, fun r => ?_⟩
  obtain ⟨⟨f0, f1, hf⟩, hcl⟩ := lin_rows hcok x y S hw hrc r
  obtain ⟨f1', hf', H⟩ := H r f0 f1 hf
  obtain ⟨c1, z0, z1⟩ := hcl f0 f1 hf
  obtain ⟨c1', z0', z1'⟩ := (lin_rows hcok x' y' S hw' hrc _).2 f0 f1' hf'
  refine ⟨_, _, _, c1, c1', fun s0 s1 s1' h0 h1 h1' => ?_⟩
  obtain ⟨-, -, r0⟩ := h0.spec hmul
  obtain ⟨-, k1, r1⟩ := h1.spec hmul
  obtain ⟨-, k1', r1'⟩ := h1'.spec hmul
  have hrow : ∀ {subs : List (Bytes × LinRow)}, (∀ e ∈ subs, LinRowOk c d e.2) →
      ∀ e ∈ subs.map (fun e => (e.1, e.2.flat)), SnipRowOk c (linWidths d nbits).length e.2 := by
    intro subs h e he
    obtain ⟨e, hm, rfl⟩ := List.mem_map.1 he
    exact ⟨by rw [linWidths_length]; exact flat_length hd (h e hm), (h e hm).pk⟩
  have hkey : ∀ {subs : List (Bytes × LinRow)}, Keyed subs → Keyed (subs.map fun e => (e.1, e.2.flat)) := by
    intro subs h e he
    obtain ⟨e, hm, rfl⟩ := List.mem_map.1 he
    exact h e hm
  have hkf : ∀ m : Map LinRow, (flatRows m).keys = m.keys := fun m => by simp [flatRows, Map.keys, Function.comp_def]
  have hadm : ∀ {subs : List (Bytes × LinRow)}, (∀ e ∈ subs, LinRowOk c d e.2) → flatRows (admit (linFits nbits) subs []) =
      admit (fun s => linFits nbits (unflat d s)) (subs.map fun e => (e.1, e.2.flat)) [] :=
    fun {subs} h => admit_map LinRow.flat subs [] (keys_lin hd h)
  have keys : ∀ (f : Fin n → LinRow), (∀ q, linFits nbits (f q) = true) → (ord (admit (linFits nbits) (fill key A1 f) [])).keys =
      (ord (admit (linFits nbits) (fill key A1 fun i => linRow1 nbits (linMk d (x i) (y i) (S i)) (zeroPacket 0)) [])).keys :=
    fun f hf => hby _ _ (admit_keys_fill A1 (fun q => by rw [hf q]; exact ((hw q).rows _ _ (zeroPacket 0)).2.1.symm) [] [] rfl)
  rw [fill_flat A1 _ z1, fill_flat A1 _ z1', fill_flat A0 _ z0] at H
  obtain ⟨a, num, b, z, z1, z', z1', v, q, q', p, p', hbl, hbc⟩ := H (hkey k1) (hkey k1') (hrow r0) (hrow r1) (hrow r1') (flatRows (ord _)) (flatRows (ord _))
    (by rw [← hadm r1]; exact (ho _).map _) (by rw [← hadm r1']; exact (ho _).map _)
    (by rw [hkf]; exact keys _ fun q => ((hw q).rows _ _ (zeroPacket 0)).2.1) (by rw [hkf]; exact keys _ fun q => ((hw' q).rows _ _ (zeroPacket 0)).2.1)
  rw [linWidths_length] at hbl
  obtain ⟨t0, rest0, d0, h0⟩ := h0
  obtain ⟨t1, rest1, d1, h1⟩ := h1
  obtain ⟨t1', rest1', d1', h1'⟩ := h1'
  unfold linOp0 linOp1
  simp only [d0, d1, d1', Proc.ofOption, Proc.bind, lin_degree hsm, hc, hmul, lin_intake (by omega : nbits ≤ 31) h0,
    lin_intake (by omega : nbits ≤ 31) h1, lin_intake (by omega : nbits ≤ 31) h1', hadm r0, hadm r1, hadm r1']
  obtain ⟨o, hq⟩ := lin_tail hd hbl hbc A0.length (a, num, z) z1
  obtain ⟨o', hq'⟩ := lin_tail hd hbl hbc A0.length (a, num, z') z1'
  exact ⟨_, (p.bind hq).sees0, (p'.bind hq').sees0⟩

/-! ### Server 1 -/

theorem xor_seg {k : ℕ} (hk : k < 64) (off len : ℕ) (S δ : ℕ → U64) (v v' : List U64) (hl : v.length = len) (hl' : v'.length = len)
    (lt : ∀ a ∈ v, a.toNat < 2 ^ k) (lt' : ∀ a ∈ v', a.toNat < 2 ^ k) (hδ : ∀ j < len, δ (off + j) = v.getD j 0#64 ^^^ v'.getD j 0#64) :
    List.zipWith (· ^^^ ·) (((List.range len).map fun j => S (off + j) ^^^ δ (off + j)).map (· % (1#64 <<< k))) v' =
      List.zipWith (· ^^^ ·) (((List.range len).map fun j => S (off + j)).map (· % (1#64 <<< k))) v := by
  apply List.ext_getElem
  · simp [hl, hl']
  · intro i h1 h2
    have hi : i < len := by simp at h1; omega
    have e : v.getD i 0#64 = v[i] := by simp [List.getD_eq_getElem?_getD, List.getElem?_eq_getElem (by omega : i < v.length)]
    have e' : v'.getD i 0#64 = v'[i] := by simp [List.getD_eq_getElem?_getD, List.getElem?_eq_getElem (by omega : i < v'.length)]
    simp only [List.getElem_zipWith, List.getElem_map, List.getElem_range]
    rw [hδ i hi, e, e', xor_mod_shl hk _ _ (by
      rw [BitVec.toNat_xor]; exact Nat.xor_lt_two_pow (lt _ (List.getElem_mem _)) (lt' _ (List.getElem_mem _)))]
    rw [BitVec.xor_assoc, BitVec.xor_assoc, BitVec.xor_self, BitVec.xor_zero]

/-- The offset of the words drawn for the shares that replaces the data `x`, `y` by `x'`, `y'`. -/
def linShift (d nbits : ℕ) (x x' : List U64) (y y' : U64) (j : ℕ) : U64 :=
  let a := x.map (· % (1#64 <<< nbits))
  let a' := x'.map (· % (1#64 <<< nbits))
  let b := y % (1#64 <<< nbits)
  let b' := y' % (1#64 <<< nbits)
  if j < d - 1 then a.getD j 0#64 ^^^ a'.getD j 0#64
  else if j = d - 1 then b ^^^ b'
  else if j < d + numQuad d then (clientQuad a).getD (j - d) 0#64 ^^^ (clientQuad a').getD (j - d) 0#64
  else (a.map (· * b)).getD (j - (d + numQuad d)) 0#64 ^^^ (a'.map (· * b')).getD (j - (d + numQuad d)) 0#64

theorem lin_shift {d : ℕ} (hd : 1 ≤ d) {nbits : ℕ} (hb : nbits ≤ 31) (x x' : List U64) (y y' : U64) (hx : x.length = d - 1)
    (hx' : x'.length = d - 1) (S : ℕ → U64) (pk : Packet) :
    linRow1 nbits (linMk d x' y' fun j => S j ^^^ linShift d nbits x x' y y' j) pk = linRow1 nbits (linMk d x y S) pk := by
  have hmm : (1#64 <<< nbits : U64) * (1#64 <<< nbits) = 1#64 <<< (2 * nbits) := by
    apply BitVec.eq_of_toNat_eq
    rw [BitVec.toNat_mul, shl_toNat (by omega), shl_toNat (by omega), ← pow_add, ← two_mul, Nat.mod_eq_of_lt]
    exact Nat.pow_lt_pow_right (by omega) (by omega)
  have lt1 : ∀ a : U64, (a % (1#64 <<< nbits)).toNat < 2 ^ nbits := fun a => by
    rw [mod_shl (by omega)]; exact Nat.mod_lt _ (pow_pos (by norm_num) _)
  have ltm : ∀ a b : U64, a.toNat < 2 ^ nbits → b.toNat < 2 ^ nbits → (a * b).toNat < 2 ^ (2 * nbits) := fun a b ha hb => by
    rw [BitVec.toNat_mul]
    refine lt_of_le_of_lt (Nat.mod_le _ _) ?_
    rw [two_mul, pow_add]
    exact Nat.mul_lt_mul'' ha hb
  have lx : ∀ x : List U64, ∀ a ∈ x.map (· % (1#64 <<< nbits)), a.toNat < 2 ^ nbits := fun x a ha => by
    obtain ⟨v, -, rfl⟩ := List.mem_map.1 ha; exact lt1 v
  have lx2 : ∀ x : List U64, ∀ a ∈ clientQuad (x.map (· % (1#64 <<< nbits))), a.toNat < 2 ^ (2 * nbits) := fun x a ha => by
    rw [clientQuad_eq] at ha
    obtain ⟨p, hp, q, hq, rfl⟩ := mem_pairProducts ha
    exact ltm p q (lx x p hp) (lx x q hq)
  have lxy : ∀ (x : List U64) (y : U64), ∀ a ∈ (x.map (· % (1#64 <<< nbits))).map (· * (y % (1#64 <<< nbits))), a.toNat < 2 ^ (2 * nbits) :=
    fun x y a ha => by
      obtain ⟨v, hv, rfl⟩ := List.mem_map.1 ha
      exact ltm v _ (lx x v hv) (lt1 y)
  have q2 : ∀ x : List U64, x.length = d - 1 → (clientQuad (x.map (· % (1#64 <<< nbits)))).length = numQuad d := fun x h => by
    rw [clientQuad_eq, pairProducts_length, List.length_map, h]; rfl
  simp only [linRow1, linRow0, linMk, LinRow.mk.injEq, and_true, hmm]
  refine ⟨?_, ?_, ?_, ?_⟩
  · have := xor_seg (k := nbits) (by omega) 0 (d - 1) S (linShift d nbits x x' y y') (x.map (· % (1#64 <<< nbits))) (x'.map (· % (1#64 <<< nbits)))
      (by simpa using hx) (by simpa using hx') (lx x) (lx x') (fun j hj => by simp only [linShift, Nat.zero_add, if_pos hj])
    simpa only [Nat.zero_add] using this
  · have e : linShift d nbits x x' y y' (d - 1) = y % (1#64 <<< nbits) ^^^ y' % (1#64 <<< nbits) := by
      simp only [linShift, lt_irrefl, if_false, if_true]
    rw [e, xor_mod_shl (by omega) _ _ (by rw [BitVec.toNat_xor]; exact Nat.xor_lt_two_pow (lt1 _) (lt1 _)), BitVec.xor_assoc, BitVec.xor_assoc,
      BitVec.xor_self, BitVec.xor_zero]
  · exact xor_seg (k := 2 * nbits) (by omega) d (numQuad d) S (linShift d nbits x x' y y') _ _ (q2 x hx) (q2 x' hx') (lx2 x) (lx2 x') (fun j hj => by
      simp only [linShift]
      rw [if_neg (by omega), if_neg (by omega), if_pos (by omega), Nat.add_sub_cancel_left])
  · exact xor_seg (k := 2 * nbits) (by omega) (d + numQuad d) (d - 1) S (linShift d nbits x x' y y') _ _ (by simpa using hx) (by simpa using hx')
      (lxy x y) (lxy x' y') (fun j hj => by
        simp only [linShift]
        rw [if_neg (by omega), if_neg (by omega), if_neg (by omega), Nat.add_sub_cancel_left])

/-- C64 for LINREG, server 1: as for VAR. The words drawn for the shares change by a XOR. The uninitialised memory `u` of server 0 is the same in both
runs: server 1 does learn about it (`C64_lin_memory_leak`). Missing, as for VAR: the masks are taken to be uniform residues. -/
theorem C64_lin_server1_partial {d : ℕ} (hd : 1 ≤ d) (hsm : linMul d < 2 ^ 18) {nbits : ℕ} (hb : nbits ≤ 24) (hn : 0 < n) {c : Circuit}
    (hc : checkLinReg intModulus d = some c) {A0 A1 : List (Fin n ⊕ Bytes × LinRow)}
    (hA0 : Arrives key A0) (hA1 : Arrives key A1) (hlen : A1.length < 2 ^ 32) (x x' : Fin n → List U64) (y y' : Fin n → U64)
    (hx : ∀ i, (x i).length = d - 1) (hx' : ∀ i, (x' i).length = d - 1)
    {t : RootTables} {l : List ℕ} (hrc : RootCalls (npow2 (linMul d) :: l) t) {X : ℤ} {uses pos : ℕ} {st0 st1 : SnipState}
    (hs0 : SnipOk X uses pos st0) (hs1 : SnipOk X uses pos st1) (coef : ℕ → ℤ) (raw1 : ℕ → ℕ → ℕ → U64) (u : ℕ → ℕ → U64)
    (ord : Map LinRow → Map LinRow) (ho : IsOrder ord) (hby : ByKeys ord) :
    ∃ δ : Fin n → ℕ → U64, ∀ S : Fin n → ℕ → U64, ∃ σ : ℕ → ℕ → ℕ → (Mask ≃ Mask), ∀ raw0 : ℕ → ℕ → ℕ → Mask,
    ∃ e : Fin n → (Draws c ≃ Draws c), (∀ i r, (e i r).1.f0 = r.1.f0 ∧ (e i r).1.g0 = r.1.g0) ∧
    ∀ r : Fin n → Draws c, ∃ f0 f0' f1 : Fin n → LinRow,
      (∀ i, clientLin d nbits (linMk d (x i) (y i) (S i)) t (r i).1 = some (f0 i, f1 i)) ∧
      (∀ i, clientLin d nbits (linMk d (x' i) (y' i) fun j => S i j ^^^ δ i j) t (e i (r i)).1 = some (f0' i, f1 i)) ∧
      ∀ s0 s0' s1, LinStream d A0.length s0 (fill key A0 f0) → LinStream d A0.length s0' (fill key A0 f0') →
        LinStream d A1.length s1 (fill key A1 f1) → ∃ v,
        Sees1 (linOp0 nbits A0.length s0 coef (fun i j k => (raw0 i j k).1) u st0) (linOp1 nbits A1.length s1 coef raw1 st1 ord) v ∧
        Sees1 (linOp0 nbits A0.length s0' coef (fun i j k => (σ i j k (raw0 i j k)).1) u st0) (linOp1 nbits A1.length s1 coef raw1 st1 ord) v := by
  obtain ⟨c', e', hcok, hmul, hzero, hin, -⟩ := linCircuit hd hsm
  rw [hc] at e'; cases e'
  choose w hw using fun i => lin_wires hd hsm (by omega : nbits ≤ 31) hc (x i) (hx i) (y i)
  choose w' hw' using fun i => lin_wires hd hsm (by omega : nbits ≤ 31) hc (x' i) (hx' i) (y' i)
  refine ⟨fun i => linShift d nbits (x i) (x' i) (y i) (y' i), fun S => ?_⟩
  set S' : Fin n → ℕ → U64 := fun i j => S i j ^^^ linShift d nbits (x i) (x' i) (y i) (y' i) j with hS'
  have hv := lin_honest hd x y S hw
  have hv' := lin_honest hd x' y' S' hw'
  have same : ∀ i pk, linRow1 nbits (linMk d (x' i) (y' i) (S' i)) pk = linRow1 nbits (linMk d (x i) (y i) (S i)) pk := fun i pk =>
    lin_shift hd (by omega) _ _ _ _ (hx i) (hx' i) _ _
  have sameV : (fun i => linV1 d nbits (x' i) (y' i) (S' i)) = fun i => linV1 d nbits (x i) (y i) (S i) := by
    funext i; simp only [linV1, same]
  rw [sameV] at hv'
  have hok : ∀ r r' : SnipRow, r.vals = r'.vals → linFits nbits (unflat d r) = linFits nbits (unflat d r') := fun r r' h => by
    obtain ⟨v, p⟩ := r
    obtain ⟨v', p'⟩ := r'
    cases h; rfl
  rw [← hmul] at hrc
  obtain ⟨σ, H⟩ := snip_hide1 hcok hs0 hs1 coef (ws := linWidths d nbits) (by rw [hin, linWidths_length]) (linWidths_le hb) raw1
    (linJunk d u) (by intro i; rw [linWidths_length]; simp [linJunk]) (fun s => linFits nbits (unflat d s)) hok hn (arrives_flat hA0)
    (arrives_flat hA1) (by simpa [flatA] using hlen) hv hv' (t := t) (l := l) hrc
    (ord (admit (linFits nbits) (fill key A1 fun i => linRow1 nbits (linMk d (x i) (y i) (S i)) (zeroPacket 0)) [])).keys
  refine ⟨σ, fun raw0 => ?_⟩
  obtain ⟨e, he, H⟩ := H raw0
  refine ⟨e, he, fun r => ?_⟩
  obtain ⟨⟨f0, f1, hf⟩, hcl⟩ := lin_rows hcok x y S hw hrc r
  obtain ⟨f0', hf', H⟩ := H r f0 f1 hf
  obtain ⟨c1, z0, z1⟩ := hcl f0 f1 hf
  obtain ⟨c1', z0', z1'⟩ := (lin_rows hcok x' y' S' hw' hrc _).2 f0' f1 (by rw [sameV]; exact hf')
  simp only [same] at c1' z1'
  refine ⟨_, _, _, c1, c1', fun s0 s0' s1 h0 h0' h1 => ?_⟩
  obtain ⟨-, -, r0⟩ := h0.spec hmul
  obtain ⟨-, -, r0'⟩ := h0'.spec hmul
  obtain ⟨-, k1, r1⟩ := h1.spec hmul
  have hrow : ∀ {subs : List (Bytes × LinRow)}, (∀ e ∈ subs, LinRowOk c d e.2) →
      ∀ e ∈ subs.map (fun e => (e.1, e.2.flat)), SnipRowOk c (linWidths d nbits).length e.2 := by
    intro subs h e he
    obtain ⟨e, hm, rfl⟩ := List.mem_map.1 he
    exact ⟨by rw [linWidths_length]; exact flat_length hd (h e hm), (h e hm).pk⟩
  have hkey : ∀ {subs : List (Bytes × LinRow)}, Keyed subs → Keyed (subs.map fun e => (e.1, e.2.flat)) := by
    intro subs h e he
    obtain ⟨e, hm, rfl⟩ := List.mem_map.1 he
    exact h e hm
  have hkf : ∀ m : Map LinRow, (flatRows m).keys = m.keys := fun m => by simp [flatRows, Map.keys, Function.comp_def]
  have hadm : ∀ {subs : List (Bytes × LinRow)}, (∀ e ∈ subs, LinRowOk c d e.2) → flatRows (admit (linFits nbits) subs []) =
      admit (fun s => linFits nbits (unflat d s)) (subs.map fun e => (e.1, e.2.flat)) [] :=
    fun {subs} h => admit_map LinRow.flat subs [] (keys_lin hd h)
  have keys : ∀ (f : Fin n → LinRow), (∀ q, linFits nbits (f q) = true) → (ord (admit (linFits nbits) (fill key A1 f) [])).keys =
      (ord (admit (linFits nbits) (fill key A1 fun i => linRow1 nbits (linMk d (x i) (y i) (S i)) (zeroPacket 0)) [])).keys :=
    fun f hf => hby _ _ (admit_keys_fill A1 (fun q => by rw [hf q]; exact ((hw q).rows _ _ (zeroPacket 0)).2.1.symm) [] [] rfl)
  rw [fill_flat A1 _ z1, fill_flat A0 _ z0', fill_flat A0 _ z0] at H
  obtain ⟨a, a', b, z, z1, z', z1', v, v', q, p, p', hbl, hbc⟩ := H (hkey k1) (hrow r0) (hrow r0') (hrow r1) (flatRows (ord _))
    (by rw [← hadm r1]; exact (ho _).map _) (by rw [hkf]; exact keys _ fun q => ((hw q).rows _ _ (zeroPacket 0)).2.1)
  rw [linWidths_length] at hbl
  obtain ⟨t0, rest0, d0, h0⟩ := h0
  obtain ⟨t0', rest0', d0', h0'⟩ := h0'
  obtain ⟨t1, rest1, d1, h1⟩ := h1
  unfold linOp0 linOp1
  simp only [d0, d0', d1, Proc.ofOption, Proc.bind, lin_degree hsm, hc, hmul, lin_intake (by omega : nbits ≤ 31) h0,
    lin_intake (by omega : nbits ≤ 31) h0', lin_intake (by omega : nbits ≤ 31) h1, hadm r0, hadm r0', hadm r1]
  obtain ⟨o, hq⟩ := lin_tail hd hbl hbc A0.length (a, z) z1
  obtain ⟨o', hq'⟩ := lin_tail hd hbl hbc A0.length (a', z') z1'
  exact ⟨_, (p.bind hq).sees1, (p'.bind hq').sees1⟩

/-! ### Non-vacuity -/

/-- Non-vacuity: degree 2 (one feature), four honest clients; features and labels (1,1), (1,2), (2,1), (2,2) in either of two assignments to the
clients, so that all sums agree. -/
example : ∃ (key : Fin 4 → Bytes) (A : List (Fin 4 ⊕ Bytes × LinRow)) (x x' : Fin 4 → List U64) (y y' : Fin 4 → U64) (c : Circuit) (t : RootTables)
    (st : SnipState), Arrives key A ∧ checkLinReg intModulus 2 = some c ∧ linMul 2 < 2 ^ 18 ∧ (∀ i, (x i).length = 2 - 1) ∧ (∀ i, (x' i).length = 2 - 1) ∧
    (∀ j < numFields 2, ∑ i, (linFields 4 (x i) (y i)).getD j 0 ≡ ∑ i, (linFields 4 (x' i) (y' i)).getD j 0 [MOD intModulus]) ∧ x ≠ x' ∧
    RootCalls [npow2 (linMul 2)] t ∧ SnipOk 5 0 0 st ∧ IsOrder (id : Map LinRow → Map LinRow) ∧ ByKeys (id : Map LinRow → Map LinRow) ∧
    ∀ r : Fin 4 → Draws c, ∃ f0 f1 s0 s1, (∀ i, clientLin 2 4 (linMk 2 (x i) (y i) fun _ => 9#64) t (r i).1 = some (f0 i, f1 i)) ∧
      LinStream 2 A.length s0 (fill key A f0) ∧ LinStream 2 A.length s1 (fill key A f1) := by
  obtain ⟨t0, h0⟩ := (⟨_, RootCalls.start⟩ : ∃ t, RootCalls [] t)
  obtain ⟨c, hc, hcok, hmul, -⟩ := linCircuit (d := 2) (by norm_num) (by decide)
  obtain ⟨t, ht⟩ := C30_sizes (c := c) (by rw [hmul]; decide) [] _ .start
  let key : Fin 4 → Bytes := fun i => List.replicate 32 (BitVec.ofNat 8 i.1)
  let x : Fin 4 → List U64 := ![[1#64], [1#64], [2#64], [2#64]]
  let y : Fin 4 → U64 := ![1#64, 2#64, 1#64, 2#64]
  have hx : ∀ i, (x i).length = 2 - 1 := by decide
  refine ⟨key, (List.finRange 4).map Sum.inl, x, ![[2#64], [2#64], [1#64], [1#64]], y, ![2#64, 1#64, 2#64, 1#64], c, t, _,
    ⟨by decide, fun i => List.mem_map.2 ⟨i, List.mem_finRange i, rfl⟩, fun e he => by simp at he⟩, hc, by decide, hx, by decide, by decide, by decide,
    by rw [← hmul]; exact ht, fresh_ok h0, fun m => List.Perm.refl _, fun m m' h => h, fun r => ?_⟩
  choose w hw using fun i => lin_wires (by norm_num) (by decide) (by norm_num : 4 ≤ 31) hc (x i) (hx i) (y i)
  obtain ⟨⟨f0, f1, hf⟩, hcl⟩ := lin_rows hcok x y (fun _ _ => 9#64) hw ht r
  obtain ⟨c1, -, -⟩ := hcl f0 f1 hf
  have hst : ∀ g : Fin 4 → LinRow, (∀ i, LinRowOk c 2 (g i) ∧ ∀ z ∈ (g i).packet.all, Fits z) →
      ∃ s, LinStream 2 ((List.finRange 4).map (Sum.inl (β := Bytes × LinRow))).length s (fill key ((List.finRange 4).map Sum.inl) g) := by
    intro g hg
    obtain ⟨bs, -, h⟩ := lin_stream (d := 2) (by norm_num) hmul (subs := fill key ((List.finRange 4).map Sum.inl) g) (by
      intro e he
      simp only [fill, List.map_map, List.mem_map, Function.comp_apply, Sum.elim_inl] at he
      obtain ⟨i, -, rfl⟩ := he
      exact ⟨by simp [key, pkLength], hg i⟩)
    exact ⟨bs ++ [], by simpa [fill] using h []⟩
  obtain ⟨s0, h0⟩ := hst _ fun i => ⟨((hw i).rows (fun _ => 9#64) (f0 i).packet (zeroPacket 0)).2.2.1 (share_sizes (r i).2 (hf.pks i)).1.1,
    (share_sizes (r i).2 (hf.pks i)).1.2⟩
  obtain ⟨s1, h1⟩ := hst _ fun i => ⟨((hw i).rows (fun _ => 9#64) (f1 i).packet (zeroPacket 0)).2.2.2.1 (share_sizes (r i).2 (hf.pks i)).2.1,
    (share_sizes (r i).2 (hf.pks i)).2.2⟩
  exact ⟨_, _, s0, s1, c1, h0, h1⟩

end Verif

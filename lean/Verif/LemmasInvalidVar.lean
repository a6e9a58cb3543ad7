import Verif.LemmasInvalid
import Verif.ModelInvalidVar
import Verif.PropsTamper
import Verif.PropsEndVar

/-!
# The clients of `var_op_invalid`, one by one
-/

namespace Verif

section Clients
variable {nbits : ℕ}

theorem sq_shl (hb : nbits ≤ 31) : ((1#64 <<< nbits : U64) * (1#64 <<< nbits)).toNat = 2 ^ (2 * nbits) := by
  rw [BitVec.toNat_mul, shl_toNat (by omega), ← pow_add, ← two_mul, Nat.mod_eq_of_lt]
  exact Nat.pow_lt_pow_right (by omega) (by omega)

/-- The value of a client other than 0. -/
theorem varReal_toNat (hb : nbits ≤ 31) (r : ℕ → U64) {i : ℕ} (hi : i ≠ 0) : (varReal nbits r i).toNat = (r i).toNat % 2 ^ nbits := by
  rw [varReal, if_neg hi, BitVec.add_zero, mod_shl (by omega)]

theorem over_toNat (hb : nbits ≤ 31) (a : U64) : (a % (1#64 <<< nbits) + 1#64 <<< nbits : U64).toNat = a.toNat % 2 ^ nbits + 2 ^ nbits := by
  have h : (2 : ℕ) ^ nbits ≤ 2 ^ 31 := Nat.pow_le_pow_right (by norm_num) hb
  have hm := Nat.mod_lt a.toNat (show 0 < 2 ^ nbits by positivity)
  rw [BitVec.toNat_add, mod_shl (by omega), shl_toNat (by omega), Nat.mod_eq_of_lt]
  omega

theorem varReal_lt (hb : nbits ≤ 31) (r : ℕ → U64) (i : ℕ) : (varReal nbits r i).toNat < 2 ^ (nbits + 1) := by
  have hm := Nat.mod_lt (r i).toNat (show 0 < 2 ^ nbits by positivity)
  rw [pow_succ]
  by_cases h : i = 0
  · subst h
    rw [varReal, if_pos rfl, over_toNat hb]; omega
  · rw [varReal_toNat hb r h]; omega

theorem varSq_toNat (hb : nbits ≤ 24) (r : ℕ → U64) (i : ℕ) : (varReal nbits r i * varReal nbits r i).toNat = (varReal nbits r i).toNat ^ 2 := by
  have h := varReal_lt (by omega : nbits ≤ 31) r i
  have h2 : (2 : ℕ) ^ (nbits + 1) ≤ 2 ^ 25 := Nat.pow_le_pow_right (by norm_num) (by omega)
  rw [BitVec.toNat_mul, ← pow_two, Nat.mod_eq_of_lt]
  calc (varReal nbits r i).toNat ^ 2 < (2 ^ 25) ^ 2 := Nat.pow_lt_pow_left (by omega) (by norm_num)
    _ ≤ 2 ^ 64 := by norm_num

/-- A word plus a word of `nbits` bits is out of range unless both are in range. -/
theorem xor_range {m a b : ℕ} (hb : b < 2 ^ m) : a ^^^ b < 2 ^ m ↔ a < 2 ^ m := by
  constructor
  · intro h
    have := Nat.xor_lt_two_pow h hb
    rwa [Nat.xor_assoc, Nat.xor_self, Nat.xor_zero] at this
  · exact fun h => Nat.xor_lt_two_pow h hb

/-- Which clients have shares in range at both servers. -/
def heldC (nbits : ℕ) (z : ℕ → U64) (i : ℕ) : Bool :=
  !(i == 0 || i == 1 || i == 9 || i == 11 || i == 13) && (i != 2 || decide ((z 2).toNat < 2 ^ (2 * nbits)))

theorem heldC_iff (z : ℕ → U64) (i : ℕ) : heldC nbits z i = true ↔
    i ≠ 0 ∧ i ≠ 1 ∧ i ≠ 9 ∧ i ≠ 11 ∧ i ≠ 13 ∧ (i = 2 → (z 2).toNat < 2 ^ (2 * nbits)) := by
  simp only [heldC, Bool.and_eq_true, Bool.not_eq_true', Bool.or_eq_false_iff, beq_eq_false_iff_ne, Bool.or_eq_true, bne_iff_ne, decide_eq_true_eq]
  tauto

theorem varSquared_lt (hb : nbits ≤ 24) (r : ℕ → U64) {i : ℕ} (hi : i ≠ 0) : (varSquared nbits r i).toNat < 2 ^ (2 * nbits) := by
  unfold varSquared
  dsimp only
  split
  · rw [BitVec.toNat_umod, sq_shl (by omega)]; exact Nat.mod_lt _ (by positivity)
  · rw [varSq_toNat hb, varReal_toNat (by omega) r hi, mul_comm 2 nbits, pow_mul]
    exact Nat.pow_lt_pow_left (Nat.mod_lt _ (by positivity)) (by norm_num)

theorem varSquare0_lt (hb : nbits ≤ 31) (z : ℕ → U64) {i : ℕ} : (varSquare0 nbits z i).toNat < 2 ^ (2 * nbits) ↔ (i = 2 → (z 2).toNat < 2 ^ (2 * nbits)) := by
  unfold varSquare0
  split
  · next h => rw [BitVec.toNat_umod, sq_shl hb]; exact ⟨fun _ h' => absurd h' h, fun _ => Nat.mod_lt _ (by positivity)⟩
  · next h => rw [not_ne_iff] at h; subst h; simp

theorem varShare0_lt (hb : nbits ≤ 31) (s : ℕ → U64) {i : ℕ} : (varShare0 nbits s i).toNat < 2 ^ nbits ↔ i ≠ 1 := by
  unfold varShare0
  have hm := Nat.mod_lt (s i).toNat (show 0 < 2 ^ nbits by positivity)
  split
  · next h => rw [over_toNat hb]; simp [h]
  · next h => rw [BitVec.add_zero, mod_shl (by omega)]; exact ⟨fun _ => h, fun _ => hm⟩

theorem varReal_range (hb : nbits ≤ 31) (r : ℕ → U64) {i : ℕ} : (varReal nbits r i).toNat < 2 ^ nbits ↔ i ≠ 0 := by
  unfold varReal
  have hm := Nat.mod_lt (r i).toNat (show 0 < 2 ^ nbits by positivity)
  split
  · next h => rw [over_toNat hb]; simp [h]
  · next h => rw [BitVec.add_zero, mod_shl (by omega)]; exact ⟨fun _ => h, fun _ => hm⟩

/-- The rows of client `i` pass the range tests iff it is not one of the first three, or is client 2 and its word is in range. -/
theorem varRow_fits (hb : nbits ≤ 24) (r s z : ℕ → U64) (i : ℕ) (p0 p1 : Packet) :
    (varFits nbits ⟨[varShare0 nbits s i, varSquare0 nbits z i], p0⟩ = true ∧
      varFits nbits ⟨[varReal nbits r i ^^^ varShare0 nbits s i, varSquared nbits r i ^^^ varSquare0 nbits z i], p1⟩ = true) ↔
    i ≠ 0 ∧ i ≠ 1 ∧ (i = 2 → (z 2).toNat < 2 ^ (2 * nbits)) := by
  simp only [varFits, Bool.and_eq_true, decide_eq_true_eq, List.getD_cons_zero, List.getD_cons_succ, BitVec.toNat_xor]
  have h1 := varShare0_lt (by omega : nbits ≤ 31) s (i := i)
  have h2 := varSquare0_lt (by omega : nbits ≤ 31) z (i := i)
  have h3 := varReal_range (by omega : nbits ≤ 31) r (i := i)
  constructor
  · rintro ⟨⟨a, b⟩, c, -⟩
    exact ⟨h3.1 ((xor_range a).1 c), h1.1 a, h2.1 b⟩
  · rintro ⟨a, b, c⟩
    refine ⟨⟨h1.2 b, h2.2 c⟩, (xor_range (h1.2 b)).2 (h3.2 a), (xor_range (h2.2 c)).2 (varSquared_lt hb r a)⟩

/-- Server 1 refuses the rows of clients 0 and 1, and that of client 2 if its word is out of range. -/
theorem varRow1_refused (hb : nbits ≤ 24) (r s z : ℕ → U64) {i : ℕ} (hi : i < 3) (h2 : 2 ^ (2 * nbits) ≤ (z 2).toNat) (p1 : Packet) :
    varFits nbits ⟨[varReal nbits r i ^^^ varShare0 nbits s i, varSquared nbits r i ^^^ varSquare0 nbits z i], p1⟩ = false := by
  rw [← Bool.not_eq_true]
  simp only [varFits, Bool.and_eq_true, decide_eq_true_eq, List.getD_cons_zero, List.getD_cons_succ, BitVec.toNat_xor]
  rintro ⟨a, b⟩
  have h1 := varShare0_lt (by omega : nbits ≤ 31) s (i := i)
  have h3 := varReal_range (by omega : nbits ≤ 31) r (i := i)
  have h4 := varSquare0_lt (by omega : nbits ≤ 31) z (i := i)
  interval_cases i
  · exact absurd ((xor_range (h1.2 (by omega))).1 a) (by rw [h3]; omega)
  · rw [Nat.xor_comm] at a
    exact absurd ((xor_range (h3.2 (by omega))).1 a) (by rw [h1]; omega)
  · rw [Nat.xor_comm] at b
    have := h4.1 ((xor_range (varSquared_lt hb r (by omega))).1 b) rfl
    omega

/-! ## The packets -/

theorem varEval (v q : ℤ) : ∃ b, varCircuit.eval intModulus [v, q] =
    some ([v, q, fmod (v * v) intModulus, fmod (q * (intModulus - 1)) intModulus,
      fmod (fmod (v * v) intModulus + fmod (q * (intModulus - 1)) intModulus) intModulus], b) := by
  refine ⟨_, rfl⟩

/-- Only the wires of the multiplication go into the packets. -/
theorem varShare_wires (v q m d e q' d' e' : ℤ) (t : RootTables) (r : SnipRand) :
    sharePolynomials intModulus varCircuit [v, q, m, d, e] t r = sharePolynomials intModulus varCircuit [v, q', m, d', e'] t r := by
  unfold sharePolynomials
  rfl

theorem draw_lists_card (k : ℕ) : {cs : List ℤ | cs.length = k ∧ ∀ y ∈ cs, IsDraw y intModulus}.ncard = intModulus ^ k := by
  refine le_antisymm (draw_lists k).2 ?_
  have hne : NeZero intModulus := ⟨by decide⟩
  let f : (Fin k → ZMod intModulus) → List ℤ := fun v => List.ofFn fun i => ((v i).val : ℤ)
  have hf : Function.Injective f := by
    intro u v h
    funext i
    have := congrFun (List.ofFn_injective h) i
    simp only [Nat.cast_inj] at this
    exact ZMod.val_injective _ this
  have hsub : f '' Set.univ ⊆ {cs : List ℤ | cs.length = k ∧ ∀ y ∈ cs, IsDraw y intModulus} := by
    rintro cs ⟨v, -, rfl⟩
    refine ⟨by simp [f], fun y hy => ?_⟩
    simp only [f, List.mem_ofFn] at hy
    obtain ⟨i, rfl⟩ := hy
    exact ⟨by omega, by exact_mod_cast (v i).val_lt⟩
  have := Set.ncard_le_ncard hsub (draw_lists k).1
  rwa [Set.ncard_image_of_injective _ hf, Set.ncard_univ, Nat.card_fun, Nat.card_zmod, Nat.card_eq_fintype_card, Fintype.card_fin] at this

/-- The numbers of an honest packet are residues. -/
theorem share_canon {c : Circuit} {w : List ℤ} {t : RootTables} {r : SnipRand} (hr : ValidRand intModulus c r) {pk : Packet × Packet}
    (h : sharePolynomials intModulus c w t r = some pk) :
    (∀ y ∈ pk.1.all, Canon y intModulus) ∧ ∀ y ∈ pk.2.all, Canon y intModulus := by
  simp only [sharePolynomials, Option.bind_eq_some_iff] at h
  obtain ⟨tr, -, pF, -, pG, -, eF, -, eG, -, ms, hms, h⟩ := h
  rw [Circuit.getMulShares, Option.map_eq_some_iff] at hms
  obtain ⟨vs, hvs, rfl⟩ := hms
  cases h
  obtain ⟨a1, a2⟩ := zipWith_split (vs := vs) hr.m
  obtain ⟨b1, b2⟩ := zipWith_split (vs := oddProducts intModulus (npow2 c.mulGates.length) eF eG) hr.h
  obtain ⟨s1, s2, s3⟩ := hr.s
  obtain ⟨t1, t2, t3, t4, t5⟩ := hr.t
  refine ⟨?_, ?_⟩
  · intro y hy
    simp only [Packet.all, List.mem_append, List.mem_cons, List.not_mem_nil, or_false] at hy
    rcases hy with ((h | h) | h) | h
    · exact a1 y h
    · rcases h with rfl | rfl | rfl
      · exact s1
      · exact s2
      · exact s3
    · exact b1 y h
    · rcases h with rfl | rfl | rfl
      · exact t3
      · exact t4
      · exact t5
  · intro y hy
    simp only [Packet.all, List.mem_append, List.mem_cons, List.not_mem_nil, or_false] at hy
    rcases hy with ((h | h) | h) | h
    · exact a2 y h
    · rcases h with rfl | rfl | rfl <;> exact fmod_canon _
    · exact b2 y h
    · rcases h with rfl | rfl | rfl <;> exact fmod_canon _

/-- Client `i` is defined. -/
theorem varBad_some (hb : nbits ≤ 24) {t : RootTables} {l : List ℕ} (hrc : RootCalls (2 :: l) t) {rand : ℕ → SnipRand} (r s z : ℕ → U64) {i : ℕ}
    (hr : ValidRand intModulus varCircuit (rand i)) : ∃ pk w b,
      varCircuit.eval intModulus [((varReal nbits r i).toNat : ℤ), (varSnipSquare nbits r i).toInt] = some (w, b) ∧
      sharePolynomials intModulus varCircuit w t (rand i) = some pk ∧
      varBad nbits t rand r s z i = some ⟨varReal nbits r i, varSquared nbits r i, ⟨[varShare0 nbits s i, varSquare0 nbits z i], (tamper i pk).1⟩,
        ⟨[varReal nbits r i ^^^ varShare0 nbits s i, varSquared nbits r i ^^^ varSquare0 nbits z i], (tamper i pk).2⟩⟩ := by
  have hv := varReal_lt (by omega : nbits ≤ 31) r i
  have h2 : (2 : ℕ) ^ (nbits + 1) ≤ 2 ^ 25 := Nat.pow_le_pow_right (by norm_num) (by omega)
  have ht : (varReal nbits r i).toInt = ((varReal nbits r i).toNat : ℤ) := BitVec.toInt_eq_toNat_of_lt (by omega)
  obtain ⟨b, hev⟩ := varEval ((varReal nbits r i).toNat : ℤ) (varSnipSquare nbits r i).toInt
  obtain ⟨pk0, pk1, hpk, -⟩ := client_spec (p := intModulus) intModulus_two_ne varCircuit_ok.wf (w := [((varReal nbits r i).toNat : ℤ), _, _, _, _]) rfl
    ((C02_tables_after_any_history _ _ hrc).1 _ _ rfl) hr.lh hr.lm
  refine ⟨(pk0, pk1), _, b, hev, hpk, ?_⟩
  rw [varBad, checkVar_eq, Option.bind_some, ht, hev, Option.bind_some, hpk, Option.map_some]

/-- The tampered packets have the right sizes and can be sent. -/
theorem tamper_sizes {c : Circuit} {w : List ℤ} {t : RootTables} {r : SnipRand} (hr : ValidRand intModulus c r) {pk : Packet × Packet}
    (h : sharePolynomials intModulus c w t r = some pk) (i : ℕ) :
    (PacketOk c (tamper i pk).1 ∧ ∀ y ∈ (tamper i pk).1.all, Fits y) ∧
      (PacketOk c (tamper i pk).2 ∧ ∀ y ∈ (tamper i pk).2.all, Fits y) := by
  obtain ⟨⟨⟨a1, a2⟩, a3⟩, ⟨⟨b1, b2⟩, b3⟩⟩ := share_sizes hr h
  obtain ⟨c0, c1⟩ := share_canon hr h
  have hp : (intModulus : ℤ) < 2 ^ 63 := by decide
  have fit : ∀ y : ℤ, Canon y intModulus → Fits (y + 1) := fun y hy => ⟨by have := hy.1; omega, by have := hy.2; omega⟩
  have fitm : ∀ (l : List ℤ), (∀ y ∈ l, Canon y intModulus) → ∀ y ∈ l.modify 0 (· + 1), Fits y := by
    intro l hl y hy
    cases l with
    | nil => simp at hy
    | cons a l =>
      simp only [List.modify_zero_cons, List.mem_cons] at hy
      rcases hy with rfl | hy
      · exact fit _ (hl _ List.mem_cons_self)
      · exact fits_canon (hl _ (List.mem_cons_of_mem _ hy))
  unfold tamper
  split
  · refine ⟨⟨⟨a1, by simpa using a2⟩, fun y hy => ?_⟩, ⟨⟨b1, b2⟩, b3⟩⟩
    simp only [Packet.all, List.mem_append] at hy
    rcases hy with (hy | hy) | hy
    · exact a3 y (by simp only [Packet.all, List.mem_append]; tauto)
    · exact fitm _ (fun y hy => c0 y (by simp only [Packet.all, List.mem_append]; tauto)) y hy
    · exact a3 y (by simp only [Packet.all, List.mem_append]; tauto)
  split
  · refine ⟨⟨⟨a1, a2⟩, a3⟩, ⟨⟨b1, b2⟩, fun y hy => ?_⟩⟩
    simp only [Packet.all, List.mem_append, List.mem_cons] at hy
    by_cases e : y = pk.2.f0 + 1
    · rw [e]; exact fit _ (c1 _ (by simp [Packet.all]))
    · exact b3 y (by simp only [Packet.all, List.mem_append, List.mem_cons]; tauto)
  split
  · refine ⟨⟨⟨by simpa using a1, a2⟩, fun y hy => ?_⟩, ⟨⟨b1, b2⟩, b3⟩⟩
    simp only [Packet.all, List.mem_append] at hy
    rcases hy with ((hy | hy) | hy) | hy
    · exact fitm _ (fun y hy => c0 y (by simp only [Packet.all, List.mem_append]; tauto)) y hy
    · exact a3 y (by simp only [Packet.all, List.mem_append]; tauto)
    · exact a3 y (by simp only [Packet.all, List.mem_append]; tauto)
    · exact a3 y (by simp only [Packet.all, List.mem_append]; tauto)
  split
  · refine ⟨⟨⟨a1, a2⟩, a3⟩, ⟨⟨b1, b2⟩, fun y hy => ?_⟩⟩
    simp only [Packet.all, List.mem_append, List.mem_cons] at hy
    by_cases e : y = pk.2.triple.A + 1
    · rw [e]; exact fit _ (c1 _ (by simp [Packet.all]))
    · exact b3 y (by simp only [Packet.all, List.mem_append, List.mem_cons]; tauto)
  · exact ⟨⟨⟨a1, a2⟩, a3⟩, ⟨⟨b1, b2⟩, b3⟩⟩

/-- What is refused for most choices is not proven. -/
theorem not_proven_of_refused {c : Circuit} (hc : CircOk c) {inps w : List ℤ} (hev : c.eval intModulus inps = some (w, true))
    (hcan : ∀ v ∈ inps, Canon v intModulus) {t : RootTables} {l : List ℕ} (hrc : RootCalls (npow2 c.mulGates.length :: l) t) {q0 q1 : Packet}
    (h0 : PacketOk c q0) (h1 : PacketOk c q1) (hsm : 2 * npow2 c.mulGates.length < intModulus) (h : Refused c inps q0 q1) : ¬ Proven c t inps q0 q1 := by
  rintro ⟨w', hev', hg⟩
  rw [hev] at hev'
  cases hev'
  have hA := (C69_dichotomy hc hev hcan h0 h1 hrc).1 rfl hg
  obtain ⟨bad, hbc, hbad⟩ := h
  have hne : NeZero intModulus := ⟨by decide⟩
  obtain ⟨x, hx⟩ : ∃ x : ZMod intModulus, x ∉ bad := by
    by_contra hall
    push Not at hall
    have : Finset.univ ⊆ bad := fun x _ => hall x
    have := Finset.card_le_card this
    rw [Finset.card_univ, ZMod.card] at this
    omega
  have hxc : Canon ((x.val : ℕ) : ℤ) intModulus := ⟨by omega, by exact_mod_cast x.val_lt⟩
  have := hbad _ hxc (by simpa using hx)
  have e : {cs : List ℤ | cs.length = c.resultZero.length + 1 ∧ (∀ y ∈ cs, IsDraw y intModulus) ∧ Accepts c ((x.val : ℕ) : ℤ) cs inps q0 q1} =
      {cs : List ℤ | cs.length = c.resultZero.length + 1 ∧ ∀ y ∈ cs, IsDraw y intModulus} := by
    ext cs
    simp only [Set.mem_ofPred_eq]
    exact ⟨fun h => ⟨h.1, h.2.1⟩, fun h => ⟨h.1, h.2, hA _ hxc cs (by omega)⟩⟩
  rw [e, draw_lists_card] at this
  have h2 := Nat.pow_lt_pow_right (show 1 < intModulus by decide) (Nat.lt_succ_self c.resultZero.length)
  simp only [Nat.succ_eq_add_one] at h2
  omega

/-! ## Which submissions are proven -/

/-- What the servers reconstruct. -/
theorem varTooWide (hb : nbits ≤ 24) (r s z : ℕ → U64) {i : ℕ} (hi : i ≠ 0) (p0 p1 : Packet) :
    recVal (varWidths nbits) ⟨[varShare0 nbits s i, varSquare0 nbits z i], p0⟩
      ⟨[varReal nbits r i ^^^ varShare0 nbits s i, varSquared nbits r i ^^^ varSquare0 nbits z i], p1⟩ 0 = (varReal nbits r i).toNat ∧
    recVal (varWidths nbits) ⟨[varShare0 nbits s i, varSquare0 nbits z i], p0⟩
      ⟨[varReal nbits r i ^^^ varShare0 nbits s i, varSquared nbits r i ^^^ varSquare0 nbits z i], p1⟩ 1 = (varSquared nbits r i).toNat := by
  have hx : ∀ a b : U64, a ^^^ (b ^^^ a) = b := fun a b => by rw [BitVec.xor_comm b a, ← BitVec.xor_assoc, BitVec.xor_self, BitVec.zero_xor]
  simp only [recVal, List.getD_cons_zero, List.getD_cons_succ, hx, varWidths]
  refine ⟨Nat.mod_eq_of_lt ((varReal_range (by omega) r).2 hi), Nat.mod_eq_of_lt ?_⟩
  rw [mul_comm nbits 2]
  exact varSquared_lt hb r hi

theorem varSquared_eq (hb : nbits ≤ 24) (r : ℕ → U64) {i : ℕ} (h3 : i ≠ 3) (h4 : i ≠ 4) : (varSquared nbits r i).toNat = (varReal nbits r i).toNat ^ 2 := by
  unfold varSquared
  dsimp only
  rw [if_neg (by omega), varSq_toNat hb]

theorem sq_wrong' {V P M : ℕ} (hP : 10 < P) (h : P + 20 < M) (hM : M < 2 * P) (hv : V < M) : ¬ (V + 10) % M % P = V % P := by
  intro e
  by_cases hc : V + 10 < M
  · rw [Nat.mod_eq_of_lt hc] at e
    have e : V + 10 ≡ V + 0 [MOD P] := e
    have := Nat.ModEq.add_left_cancel' V e
    rw [Nat.ModEq, Nat.mod_eq_of_lt hP, Nat.zero_mod] at this
    omega
  · rw [Nat.mod_eq_sub_mod (show M ≤ V + 10 by omega), Nat.mod_eq_of_lt (show V + 10 - M < M by omega), Nat.mod_eq_of_lt (show V + 10 - M < P by omega),
      Nat.mod_eq_sub_mod (show P ≤ V by omega), Nat.mod_eq_of_lt (show V - P < P by omega)] at e
    omega

theorem sq_wrong {nbits V P : ℕ} (h1 : 1 ≤ nbits) (hb : nbits ≤ 24) (hv2 : V < 2 ^ (2 * nbits)) (hP : 2 ^ 46 < P) (h : P + 20 < 2 ^ 48)
    (hM : 2 ^ 48 < 2 * P) : ¬ (V + 10) % 2 ^ (2 * nbits) % P = V % P := by
  have hlt := Nat.mod_lt (V + 10) (show 0 < 2 ^ (2 * nbits) by positivity)
  by_cases hn : nbits = 24
  · subst hn
    exact sq_wrong' (by omega) h hM hv2
  · have h46 : (2 : ℕ) ^ (2 * nbits) ≤ 2 ^ 46 := Nat.pow_le_pow_right (by norm_num) (by omega)
    rw [Nat.mod_eq_of_lt (show V < P by omega), Nat.mod_eq_of_lt (show (V + 10) % 2 ^ (2 * nbits) < P by omega)]
    intro h
    have h4 : 4 ∣ 2 ^ (2 * nbits) := by
      have : (4 : ℕ) = 2 ^ 2 := by norm_num
      rw [this]
      exact pow_dvd_pow 2 (by omega)
    have := Nat.mod_mod_of_dvd (V + 10) h4
    rw [h] at this
    omega

/-- The square of clients 3 and 4 is wrong modulo `p`. -/
theorem varSquared_wrong (h1 : 1 ≤ nbits) (hb : nbits ≤ 24) (r : ℕ → U64) {i : ℕ} (h : i = 3 ∨ i = 4) :
    ((varSquared nbits r i).toNat : ZMod intModulus) ≠ ((varReal nbits r i).toNat : ZMod intModulus) ^ 2 := by
  have hv : (varReal nbits r i).toNat < 2 ^ nbits := (varReal_range (by omega) r).2 (by omega)
  have hv2 : (varReal nbits r i).toNat ^ 2 < 2 ^ (2 * nbits) := by
    rw [mul_comm 2 nbits, pow_mul]; exact Nat.pow_lt_pow_left hv (by norm_num)
  have h48 : (2 : ℕ) ^ (2 * nbits) ≤ 2 ^ 48 := Nat.pow_le_pow_right (by norm_num) (by omega)
  have e : (varSquared nbits r i).toNat = ((varReal nbits r i).toNat ^ 2 + 10) % 2 ^ (2 * nbits) := by
    unfold varSquared
    dsimp only
    rw [if_pos h, BitVec.toNat_umod, sq_shl (by omega), BitVec.toNat_add, varSq_toNat hb]
    have : (10#64 : U64).toNat = 10 := rfl
    rw [this, Nat.mod_eq_of_lt (show _ < 2 ^ 64 by omega)]
  rw [e, ← Nat.cast_pow, Ne, ZMod.natCast_eq_natCast_iff']
  exact sq_wrong h1 hb hv2 (by decide) (by decide) (by decide)

theorem fmod_small {v : ℕ} (h : v < intModulus) : fmod (v : ℤ) intModulus = v := by
  have hne : NeZero intModulus := ⟨by decide⟩
  exact canon_eq_of_cast (fmod_canon _) ⟨by omega, by exact_mod_cast h⟩ (by rw [fmod_cast])

/-- Clients 3 to 8 are not proven: wrong squares, tampered packets. (For 6 and 8 the change must matter.) -/
theorem varBad_not_proven (h1 : 1 ≤ nbits) (hb : nbits ≤ 24) {t : RootTables} {l : List ℕ} (hrc : RootCalls (2 :: l) t) {rand : ℕ → SnipRand}
    (r s z : ℕ → U64) {i : ℕ} (hr : ValidRand intModulus varCircuit (rand i)) (hi : 3 ≤ i) (hi' : i ≤ 8)
    (h6 : i = 6 → ((rand 6).g0 : ZMod intModulus) ≠ 0 ∨ (varReal nbits r 6).toNat ≠ 0) (h8 : i = 8 → (rand 8).B ≠ 0) {o : BadVar} (ho : varBad nbits t rand r s z i = some o) :
    ¬ Proven varCircuit t (recIn (varWidths nbits) o.row0 o.row1) o.row0.packet o.row1.packet := by
  obtain ⟨pk, w, b, hev, hpk, ho'⟩ := varBad_some hb hrc r s z hr
  rw [ho] at ho'
  cases ho'
  have hrv : (varReal nbits r i).toNat < 2 ^ nbits := (varReal_range (by omega) r).2 (by omega)
  have h24 : (2 : ℕ) ^ nbits ≤ 2 ^ 24 := Nat.pow_le_pow_right (by norm_num) hb
  have hpv : 2 ^ 24 < intModulus := by decide
  have hrec : recIn (varWidths nbits) ⟨[varShare0 nbits s i, varSquare0 nbits z i], (tamper i pk).1⟩
      ⟨[varReal nbits r i ^^^ varShare0 nbits s i, varSquared nbits r i ^^^ varSquare0 nbits z i], (tamper i pk).2⟩ =
      [((varReal nbits r i).toNat : ℤ), fmod (varSquared nbits r i).toNat intModulus] := by
    obtain ⟨e0, e1⟩ := varTooWide hb r s z (show i ≠ 0 by omega) (tamper i pk).1 (tamper i pk).2
    have : ∀ r0 r1, recIn (varWidths nbits) r0 r1 = [fmod (recVal (varWidths nbits) r0 r1 0) intModulus, fmod (recVal (varWidths nbits) r0 r1 1) intModulus] :=
      fun _ _ => rfl
    rw [this, e0, e1, fmod_small (by omega)]
  dsimp only
  rw [hrec]
  have hne : NeZero intModulus := ⟨by decide⟩
  by_cases h34 : i = 3 ∨ i = 4
  · rintro ⟨w', hev', -⟩
    obtain ⟨c, w2, b2, hc, -, hev2, hb2⟩ := C26_checkVar ((varReal nbits r i).toNat : ℤ) (fmod (varSquared nbits r i).toNat intModulus)
    rw [checkVar_eq] at hc; cases hc
    rw [hev'] at hev2; cases hev2
    have := hb2.1 rfl
    rw [fmod_cast] at this
    exact varSquared_wrong h1 hb r h34 (by exact_mod_cast this)
  have hsq := varSquared_eq hb r (i := i) (by omega) (by omega)
  obtain ⟨c, w', b', hc, -, hev', hb'⟩ := C26_checkVar ((varReal nbits r i).toNat : ℤ) (fmod (varSquared nbits r i).toNat intModulus)
  rw [checkVar_eq] at hc; cases hc
  have hbt : b' = true := by
    rw [hb', fmod_cast, hsq]; push_cast; rfl
  subst hbt
  have hpk' : sharePolynomials intModulus varCircuit w' t (rand i) = some (pk.1, pk.2) := by
    obtain ⟨b1, e1⟩ := varEval ((varReal nbits r i).toNat : ℤ) (varSnipSquare nbits r i).toInt
    obtain ⟨b2, e2⟩ := varEval ((varReal nbits r i).toNat : ℤ) (fmod (varSquared nbits r i).toNat intModulus)
    rw [e1] at hev; cases hev
    rw [e2] at hev'; cases hev'
    rw [← hpk]
    exact varShare_wires _ _ _ _ _ _ _ _ _ _
  have hcan : ∀ v ∈ [((varReal nbits r i).toNat : ℤ), fmod (varSquared nbits r i).toNat intModulus], Canon v intModulus := by
    intro v hv
    simp only [List.mem_cons, List.not_mem_nil, or_false] at hv
    rcases hv with rfl | rfl
    · exact ⟨by omega, by omega⟩
    · exact fmod_canon _
  obtain ⟨z0, z1⟩ := tamper_sizes hr hpk i
  refine not_proven_of_refused varCircuit_ok hev' hcan hrc z0.1 z1.1 (by decide) ?_
  obtain ⟨q1, q2, q3, q4⟩ := C69_off_by_one varCircuit_ok hev' hcan hrc hr hpk'
  have : i = 5 ∨ i = 6 ∨ i = 7 ∨ i = 8 := by omega
  rcases this with rfl | rfl | rfl | rfl
  · exact q1 0 (by decide)
  · refine q3 ?_
    rcases h6 rfl with h | h
    · exact .inl h
    · right
      refine ⟨0, by decide, ?_⟩
      obtain ⟨b2, e2⟩ := varEval ((varReal nbits r 6).toNat : ℤ) (fmod (varSquared nbits r 6).toNat intModulus)
      rw [e2] at hev'; cases hev'
      show (((varReal nbits r 6).toNat : ℤ) : ZMod intModulus) ≠ 0
      intro h'
      rw [ZMod.intCast_zmod_eq_zero_iff_dvd] at h'
      have := Int.eq_zero_of_dvd_of_nonneg_of_lt (by omega) (by omega) h'
      omega
  · exact q2 0 (by decide)
  · exact q4 (h8 rfl)

/-- The other clients held by both servers always pass. -/
theorem varBad_passes (hb : nbits ≤ 24) {t : RootTables} {l : List ℕ} (hrc : RootCalls (2 :: l) t) {rand : ℕ → SnipRand} {r s z : ℕ → U64} {i : ℕ}
    (hr : ValidRand intModulus varCircuit (rand i)) (h0 : i ≠ 0) (hi : i < 3 ∨ 8 < i) {o : BadVar} (ho : varBad nbits t rand r s z i = some o)
    {subs0 subs1 : List (Bytes × SnipRow)} {k : Bytes} (f0 : firstOf (varFits nbits) subs0 k = some o.row0)
    (f1 : firstOf (varFits nbits) subs1 k = some o.row1) {x : ℤ} (hx : Canon x intModulus) {cs : List ℤ} (hcs : 2 ≤ cs.length) :
    Passes varCircuit x (varWidths nbits) (varFits nbits) subs0 subs1 cs k := by
  obtain ⟨pk, w, b, hev, hpk, ho'⟩ := varBad_some hb hrc r s z hr
  rw [ho] at ho'
  cases ho'
  obtain ⟨e0, e1⟩ := varTooWide hb r s z h0 (tamper i pk).1 (tamper i pk).2
  have ht : tamper i pk = pk := by
    unfold tamper
    rw [if_neg (by omega), if_neg (by omega), if_neg (by omega), if_neg (by omega)]
  have hv := varReal_lt (by omega : nbits ≤ 31) r i
  have h2 : (2 : ℕ) ^ (nbits + 1) ≤ 2 ^ 25 := Nat.pow_le_pow_right (by norm_num) (by omega)
  have h50 : (varReal nbits r i).toNat ^ 2 < 2 ^ 50 := by
    calc (varReal nbits r i).toNat ^ 2 < (2 ^ 25) ^ 2 := Nat.pow_lt_pow_left (by omega) (by norm_num)
      _ = 2 ^ 50 := by norm_num
  have hsn : (varSnipSquare nbits r i).toInt = (((varReal nbits r i).toNat ^ 2 : ℕ) : ℤ) := by
    unfold varSnipSquare
    dsimp only
    have := varSq_toNat hb r i
    rw [if_neg (by omega), BitVec.toInt_eq_toNat_of_lt (by omega), this]
  obtain ⟨c, w', b', hc, -, hev', hb'⟩ := C26_checkVar ((varReal nbits r i).toNat : ℤ) (((varReal nbits r i).toNat ^ 2 : ℕ) : ℤ)
  rw [checkVar_eq] at hc; cases hc
  have hbt : b' = true := by rw [hb']; push_cast; rfl
  subst hbt
  rw [hsn, hev'] at hev
  cases hev
  refine C40_honest_passes f0 f1 hev' ?_ ?_ hrc hr ?_ hx hcs
  · rw [e0]; push_cast; rfl
  · rw [e1, varSquared_eq hb r (by omega) (by omega)]; push_cast; rfl
  · rw [hpk, ht]

end Clients

end Verif

import Verif.LemmasViewFreq

/-! # Changes of randomness that hide a change of the submitted vectors in FREQ -/

namespace Verif

/-! ### daBits of a server given those of the other -/

/-- The daBit that matches `a` and has the boolean part of `b` changed by `δ`. -/
def reDa (p : ℕ) (a b : DaBit) (δ : Bool) : DaBit := ⟨fmod ((if a.b2 ^^ (b.b2 ^^ δ) then 1 else 0) - a.bp) p, b.b2 ^^ δ⟩

theorem daOk_symm {p : ℕ} {a b : DaBit} (h : DaOk p a b) : DaOk p b a := by
  obtain ⟨-, h1, h2, h3⟩ := h
  refine ⟨rfl, ?_, h3, h2⟩
  rwa [add_comm, Bool.xor_comm]

theorem reDa_ok {p : ℕ} [NeZero p] {a b : DaBit} (h : DaOk p a b) (δ : Bool) : DaOk p a (reDa p a b δ) := by
  obtain ⟨-, -, h2, -⟩ := h
  refine ⟨rfl, ?_, h2, fmod_canon _⟩
  rw [← ZMod.intCast_eq_intCast_iff]
  simp [reDa, fmod_cast]

theorem reDa_reDa {p : ℕ} [NeZero p] {a b : DaBit} (h : DaOk p a b) (δ : Bool) : reDa p a (reDa p a b δ) δ = b := by
  obtain ⟨-, h1, -, h3⟩ := h
  have e : ((b.b2 ^^ δ) ^^ δ) = b.b2 := by cases b.b2 <;> cases δ <;> rfl
  have e2 : fmod ((if a.b2 ^^ b.b2 then 1 else 0) - a.bp) p = b.bp := by
    refine canon_eq_of_cast (fmod_canon _) h3 ?_
    have h1 := (ZMod.intCast_eq_intCast_iff _ _ _).2 h1
    rw [fmod_cast, Int.cast_sub, ← h1]; push_cast; ring
  unfold reDa
  simp only [e, e2]

/-- The same along the queues. -/
def turnDa (p : ℕ) : (ℕ → Bool) → List DaBit → List DaBit → List DaBit
  | δ, a :: as, b :: bs => reDa p a b (δ 0) :: turnDa p (fun i => δ (i + 1)) as bs
  | _, _, _ => []

theorem turnDa_ok {p : ℕ} [NeZero p] {A B : List DaBit} (h : List.Forall₂ (DaOk p) A B) (δ : ℕ → Bool) :
    List.Forall₂ (DaOk p) A (turnDa p δ A B) ∧ turnDa p δ A (turnDa p δ A B) = B ∧
    (turnDa p δ A B).map (·.b2) = (B.map (·.b2)).mapIdx fun i b => b ^^ δ i := by
  induction h generalizing δ with
  | nil => exact ⟨.nil, rfl, rfl⟩
  | cons h _ ih =>
    obtain ⟨i1, i2, i3⟩ := ih fun i => δ (i + 1)
    refine ⟨.cons (reDa_ok h _) i1, ?_, ?_⟩
    · rw [turnDa, turnDa, i2, reDa_reDa h]
    · rw [turnDa, List.map_cons, i3, List.map_cons, List.mapIdx_cons]; rfl

/-- The stores of server 1 that match a given store of server 0, with the boolean parts changed. -/
def turn1 {p : ℕ} [NeZero p] (s0 : Store) (δ : ℕ → Bool) : {s1 // StoresOk p s0 s1} ≃ {s1 // StoresOk p s0 s1} :=
  Function.Involutive.toPerm (fun s => ⟨⟨turnDa p δ s0.dabits s.1.dabits, s.1.triples, s.1.calls⟩, (turnDa_ok s.2.da δ).1, s.2.tr⟩) fun s => by
    apply Subtype.ext
    simp only [(turnDa_ok s.2.da δ).2.1]

theorem forall2_symm {p : ℕ} {A B : List DaBit} (h : List.Forall₂ (DaOk p) A B) : List.Forall₂ (DaOk p) B A := by
  induction h with
  | nil => exact .nil
  | cons h _ ih => exact .cons (daOk_symm h) ih

/-- The same for server 0. -/
def turn0 {p : ℕ} [NeZero p] (s1 : Store) (δ : ℕ → Bool) : {s0 // StoresOk p s0 s1} ≃ {s0 // StoresOk p s0 s1} :=
  Function.Involutive.toPerm (fun s => ⟨⟨turnDa p δ s1.dabits s.1.dabits, s.1.triples, s.1.calls⟩,
    forall2_symm (turnDa_ok (forall2_symm s.2.da) δ).1, s.2.tr⟩) fun s => by
    apply Subtype.ext
    simp only [(turnDa_ok (forall2_symm s.2.da) δ).2.1]

/-! ### Random draws -/

/-- Server 1's random bits changed, from position `k` of the queue on. -/
def turnBits (δ : ℕ → Bool) (k : ℕ) : StoreRng ≃ StoreRng :=
  Function.Involutive.toPerm (fun g => ⟨fun c i => ((g.da c i).1 ^^ δ (k + i), (g.da c i).2), g.lz, g.tr⟩) fun g => by
    cases g; simp

/-- The bits of the daBits server 0 makes alone changed. -/
def turnLazy (δ : ℕ → Bool) (k : ℕ) : StoreRng ≃ StoreRng :=
  Function.Involutive.toPerm (fun g => ⟨g.da, fun c i => (if δ (k + i) then 1 - (g.lz c i).1 else (g.lz c i).1, (g.lz c i).2), g.tr⟩) fun g => by
    obtain ⟨da, lz, tr⟩ := g
    simp only [StoreRng.mk.injEq, true_and, and_true]
    funext c i
    by_cases h : δ (k + i) = true <;> simp [h]

theorem mapIdx_append_bits (A B : List Bool) (δ : ℕ → Bool) :
    (A ++ B).mapIdx (fun i b => b ^^ δ i) = A.mapIdx (fun i b => b ^^ δ i) ++ B.mapIdx fun i b => b ^^ δ (A.length + i) := by
  apply List.ext_getElem
  · simp
  · intro i h1 h2
    simp only [List.getElem_mapIdx, List.getElem_append, List.length_mapIdx]
    split
    · rfl
    · rw [show A.length + (i - A.length) = i by omega]

theorem made1_bits {p : ℕ} {c : StoreCfg} (hl : c.lazy = false) (g0 g1 : StoreRng) (calls0 calls1 num : ℕ) :
    (daMade1 p c g0 g1 calls0 calls1 num).map (·.b2) = (firstN (g1.da calls1) num).map (·.1) := by
  unfold daMade1 daWords firstN
  rw [hl]
  simp only [Bool.false_eq_true, if_false]
  generalize List.range num = l
  rw [List.map_map, List.map_map]
  induction l with
  | nil => rfl
  | cons i l ih => simp only [List.map_cons, otChoose_cons, List.zipWith_cons_cons]; rw [ih]

/-- Server 1's queue after the change: the boolean parts are changed as wanted. -/
theorem stock1_turn {p : ℕ} [NeZero p] {c : StoreCfg} (hl : c.lazy = false) (g0 g1 : StoreRng) {s0 : Store} (s1 : {s1 // StoresOk p s0 s1})
    (δ : ℕ → Bool) (n : ℕ) : (stock1 p c g0 (turnBits δ s0.dabits.length g1) s0 (turn1 s0 δ s1).1 n).map (·.b2) =
      ((stock1 p c g0 g1 s0 s1.1 n).map (·.b2)).mapIdx fun i b => b ^^ δ i := by
  obtain ⟨s1, h⟩ := s1
  obtain ⟨h1, -, h3⟩ := turnDa_ok h.da δ
  have ht : (turn1 s0 δ ⟨s1, h⟩).1 = ⟨turnDa p δ s0.dabits s1.dabits, s1.triples, s1.calls⟩ := rfl
  have hlen : (turnDa p δ s0.dabits s1.dabits).length = s1.dabits.length := by rw [← h1.length_eq, h.len]
  rw [ht]
  unfold stock1
  simp only [hlen]
  split
  · rw [List.map_append, List.map_append, h3, made1_bits hl, made1_bits hl, mapIdx_append_bits, List.length_map, h.len]
    congr 1
    apply List.ext_getElem
    · simp
    · intro i h1 h2
      simp [firstN, turnBits, Function.Involutive.toPerm]
  · exact h3

/-- The masked bits do not change. -/
theorem veil_turn {T T' : List DaBit} {x x' : List Bool} {δ : ℕ → Bool} (hT : T'.map (·.b2) = (T.map (·.b2)).mapIdx fun i b => b ^^ δ i)
    (hx : x'.length = x.length) (hδ : ∀ i < x.length, x'.getD i false = (x.getD i false ^^ δ i)) : veil T' x' = veil T x := by
  unfold veil maskBits
  rw [List.map_take, List.map_take, hT, hx]
  apply List.ext_getElem
  · simp [hx]
  · intro i h1 h2
    simp only [List.length_zipWith, List.length_take, List.length_mapIdx, List.length_map] at h1 h2
    simp only [List.getElem_zipWith, List.getElem_take, List.getElem_mapIdx]
    have := hδ i (by omega)
    rw [List.getD_eq_getElem?_getD, List.getD_eq_getElem?_getD, List.getElem?_eq_getElem (by omega), List.getElem?_eq_getElem (by omega)] at this
    simp only [Option.getD_some] at this
    rw [this]
    cases x[i] <;> cases δ i <;> simp

/-! ### daBits made by server 0 alone -/

/-- The draws for which the bit could also be the other one: `bp` of server 1 is not 1. -/
def OpenRng (p : ℕ) (g : StoreRng) : Prop := GoodRng p g ∧ ∀ c i, (g.lz c i).2 < p - 2

/-- The change as a bijection of these draws. -/
def turnOpen (p : ℕ) (δ : ℕ → Bool) (k : ℕ) : {g // OpenRng p g} ≃ {g // OpenRng p g} :=
  (turnLazy δ k).subtypeEquiv fun g => by
    have aux : ∀ g : StoreRng, OpenRng p g → OpenRng p (turnLazy δ k g) := by
      rintro g ⟨h1, h2⟩
      refine ⟨fun c i => ?_, h2⟩
      have a := h1 c i
      have b := h2 c i
      obtain ⟨a1, a2, a3⟩ := a
      show IsDaDraw p (if δ (k + i) then 1 - (g.lz c i).1 else (g.lz c i).1) (g.lz c i).2
      refine ⟨?_, a2, ?_⟩
      · split <;> omega
      · split <;> omega
    refine ⟨aux g, fun h => ?_⟩
    have := aux _ h
    rwa [show turnLazy δ k (turnLazy δ k g) = g from (turnLazy δ k).left_inv g] at this

theorem lazy_flip {p : ℕ} (hp : p % 2 = 1) {b r : ℤ} (h : IsDaDraw p b r) (h2 : r < p - 2) :
    (makeLocalDaBit p (1 - b) r).2 = (makeLocalDaBit p b r).2 ∧ (makeLocalDaBit p (1 - b) r).1.b2 = !(makeLocalDaBit p b r).1.b2 := by
  have h' : IsDaDraw p (1 - b) r := by
    obtain ⟨h0, h1, h3⟩ := h
    exact ⟨by omega, h1, by omega⟩
  have e1 := dabit_bp1 h
  have e2 := dabit_bp1 h'
  constructor
  · have e : (makeLocalDaBit p (1 - b) r).2.bp = (makeLocalDaBit p b r).2.bp := by rw [e1, e2]
    have : ∀ b, (makeLocalDaBit p b r).2 = ⟨(makeLocalDaBit p b r).2.bp, !isOdd (makeLocalDaBit p b r).2.bp⟩ := fun _ => rfl
    rw [this, this b, e]
  · show isOdd (r + (1 - b + 1)) = !isOdd (r + (b + 1))
    unfold isOdd
    rcases h.1 with rfl | rfl
    · rcases Int.emod_two_eq_zero_or_one r with e | e
      · rw [show (r + (1 - 0 + 1)) % 2 = 0 by omega, show (r + (0 + 1)) % 2 = 1 by omega]; rfl
      · rw [show (r + (1 - 0 + 1)) % 2 = 1 by omega, show (r + (0 + 1)) % 2 = 0 by omega]; rfl
    · rcases Int.emod_two_eq_zero_or_one r with e | e
      · rw [show (r + (1 - 1 + 1)) % 2 = 1 by omega, show (r + (1 + 1)) % 2 = 0 by omega]; rfl
      · rw [show (r + (1 - 1 + 1)) % 2 = 0 by omega, show (r + (1 + 1)) % 2 = 1 by omega]; rfl

theorem lazy_turn {p : ℕ} (hp : p % 2 = 1) (δ : ℕ → Bool) (k : ℕ) (g : {g // OpenRng p g}) (calls num : ℕ) :
    (lazyPairs p (turnOpen p δ k g).1 calls num).map (·.2) = (lazyPairs p g.1 calls num).map (·.2) ∧
    (lazyPairs p (turnOpen p δ k g).1 calls num).map (·.1.b2) = ((lazyPairs p g.1 calls num).map (·.1.b2)).mapIdx fun i b => b ^^ δ (k + i) := by
  have hl : ∀ c i, (turnOpen p δ k g).1.lz c i = (if δ (k + i) then 1 - (g.1.lz c i).1 else (g.1.lz c i).1, (g.1.lz c i).2) := fun _ _ => rfl
  unfold lazyPairs firstN
  constructor
  · simp only [List.map_map]
    refine List.map_congr_left fun i _ => ?_
    simp only [Function.comp_apply, hl]
    split
    · exact (lazy_flip hp (g.2.1 calls i) (g.2.2 calls i)).1
    · rfl
  · apply List.ext_getElem
    · simp
    · intro i h1 h2
      simp only [List.getElem_map, List.getElem_range, List.getElem_mapIdx, hl]
      by_cases h : δ (k + i) = true
      · simp only [h, if_true, Bool.xor_true]
        exact (lazy_flip hp (g.2.1 calls i) (g.2.2 calls i)).2
      · simp [h]

/-- The queues after the change: server 1's is the same, and the boolean parts of server 0's are changed as wanted. -/
theorem stock_turnLazy {p : ℕ} [NeZero p] (hp : p % 2 = 1) {c : StoreCfg} (hl : c.lazy = true) (g0 : {g // OpenRng p g}) (g1 : StoreRng) {s1 : Store}
    (s0 : {s0 // StoresOk p s0 s1}) (δ : ℕ → Bool) (n : ℕ) :
    (stock0 p c (turnOpen p δ s1.dabits.length g0).1 (turn0 s1 δ s0).1 n).map (·.b2) = ((stock0 p c g0.1 s0.1 n).map (·.b2)).mapIdx (fun i b => b ^^ δ i) ∧
    stock1 p c (turnOpen p δ s1.dabits.length g0).1 g1 (turn0 s1 δ s0).1 s1 n = stock1 p c g0.1 g1 s0.1 s1 n ∧
    stockSeen p c (turnOpen p δ s1.dabits.length g0).1 g1 (turn0 s1 δ s0).1 s1 n = stockSeen p c g0.1 g1 s0.1 s1 n := by
  obtain ⟨s0, h⟩ := s0
  obtain ⟨h1, -, h3⟩ := turnDa_ok (forall2_symm h.da) δ
  have ht : (turn0 s1 δ ⟨s0, h⟩).1 = ⟨turnDa p δ s1.dabits s0.dabits, s0.triples, s0.calls⟩ := rfl
  have hlen : (turnDa p δ s1.dabits s0.dabits).length = s0.dabits.length := by rw [← h1.length_eq, h.len]
  rw [ht]
  refine ⟨?_, ?_, ?_⟩
  · unfold stock0 daMade0
    simp only [hlen, hl, if_true]
    obtain ⟨e1, e2⟩ := lazy_turn hp δ s1.dabits.length g0 s0.calls (max (n - s0.dabits.length) c.batch)
    split
    · rw [List.map_append, List.map_append, h3, mapIdx_append_bits, List.length_map, h.len]
      congr 1
      rw [List.map_map, List.map_map]
      exact h.len ▸ e2
    · exact h3
  · unfold stock1 daMade1
    simp only [hl, if_true]
    obtain ⟨e1, e2⟩ := lazy_turn hp δ s1.dabits.length g0 s0.calls (max (n - s1.dabits.length) c.batch)
    rw [e1]
  · unfold stockSeen daSeen
    simp only [hl, if_true]
    obtain ⟨e1, e2⟩ := lazy_turn hp δ s1.dabits.length g0 s0.calls (max (n - s1.dabits.length) c.batch)
    rw [e1]

/-! ### daBits made jointly -/

/-- Draws of server 0 for the joint generation, with uniform residues as masks. -/
abbrev MaskRng : Type := ℕ → ℕ → Bool × Mask

/-- As draws of the store; nothing else is used in this mode. -/
def MaskRng.rng (d : MaskRng) (g : StoreRng) : StoreRng := ⟨fun c i => ((d c i).1, (d c i).2.1), g.lz, g.tr⟩

theorem one_le_modulus : (1#64 : U64).toNat ≤ intModulus := by decide

/-- The change of one bit and its mask when server 1 chooses `b`. -/
noncomputable def flipMask (δ b : Bool) : Bool × Mask ≃ Bool × Mask :=
  Function.Involutive.toPerm (fun d => if δ && b then (if d.1 then (false, addMask 1#64 one_le_modulus d.2) else
    (true, (addMask 1#64 one_le_modulus).symm d.2)) else (d.1 ^^ δ, d.2)) fun d => by
    obtain ⟨x, m⟩ := d
    cases δ <;> cases b <;> cases x <;> simp

theorem flipMask_bit (δ b : Bool) (d : Bool × Mask) : (flipMask δ b d).1 = (d.1 ^^ δ) := by
  obtain ⟨x, m⟩ := d
  cases δ <;> cases b <;> cases x <;> rfl

theorem flipMask_word (δ b : Bool) (d : Bool × Mask) :
    (if b then (daPair (BitVec.ofNat 64 intModulus) ((flipMask δ b d).1, (flipMask δ b d).2.1)).2 else
      (daPair (BitVec.ofNat 64 intModulus) ((flipMask δ b d).1, (flipMask δ b d).2.1)).1) =
    if b then (daPair (BitVec.ofNat 64 intModulus) (d.1, d.2.1)).2 else (daPair (BitVec.ofNat 64 intModulus) (d.1, d.2.1)).1 := by
  have e : (BitVec.ofNat 64 intModulus : U64) = modW := rfl
  have hr : ∀ x : U64, x % modW = redMod modW x := fun x => by rw [redMod, if_neg (by decide)]
  have ha : ∀ m : Mask, (addMask 1#64 one_le_modulus m).1 = redMod modW (m.1 + 1#64) := fun m => rfl
  obtain ⟨x, m⟩ := d
  simp only [daPair, e, hr, redMask]
  cases b
  · cases δ <;> cases x <;> rfl
  · cases δ
    · cases x <;> rfl
    · cases x
      · show redMod modW (((addMask 1#64 one_le_modulus).symm m).1 + 1#64) = redMod modW (m.1 + 0#64)
        rw [← ha, Equiv.apply_symm_apply, BitVec.add_zero, redMask]
      · show redMod modW ((addMask 1#64 one_le_modulus m).1 + 0#64) = redMod modW (m.1 + 1#64)
        rw [BitVec.add_zero, redMask, ha]

/-- The change of all draws; `b` are the choices of server 1. -/
noncomputable def turnMasks (δ : ℕ → Bool) (k : ℕ) (b : ℕ → Bool) : MaskRng ≃ MaskRng :=
  Equiv.piCongrRight fun _ => Equiv.piCongrRight fun i => flipMask (δ (k + i)) (b i)

/-- The queues after the change: server 1's is the same, and the boolean parts of server 0's are changed as wanted. -/
theorem stock_turnMasks {c : StoreCfg} (hl : c.lazy = false) (d : MaskRng) (g0 g1 : StoreRng) {s1 : Store} (s0 : {s0 // StoresOk intModulus s0 s1})
    (δ : ℕ → Bool) (n : ℕ) {d' : MaskRng} (hd : d' = turnMasks δ s1.dabits.length (fun i => (g1.da s1.calls i).1) d) :
    (stock0 intModulus c (d'.rng g0) (turn0 s1 δ s0).1 n).map (·.b2) = ((stock0 intModulus c (d.rng g0) s0.1 n).map (·.b2)).mapIdx (fun i b => b ^^ δ i) ∧
    stock1 intModulus c (d'.rng g0) g1 (turn0 s1 δ s0).1 s1 n = stock1 intModulus c (d.rng g0) g1 s0.1 s1 n ∧
    stockSeen intModulus c (d'.rng g0) g1 (turn0 s1 δ s0).1 s1 n = stockSeen intModulus c (d.rng g0) g1 s0.1 s1 n := by
  obtain ⟨s0, h⟩ := s0
  obtain ⟨h1, -, h3⟩ := turnDa_ok (forall2_symm h.da) δ
  have ht : (turn0 s1 δ ⟨s0, h⟩).1 = ⟨turnDa intModulus δ s1.dabits s0.dabits, s0.triples, s0.calls⟩ := rfl
  have hlen : (turnDa intModulus δ s1.dabits s0.dabits).length = s0.dabits.length := by rw [← h1.length_eq, h.len]
  have hd' : ∀ c i, d' c i = flipMask (δ (s1.dabits.length + i)) (g1.da s1.calls i).1 (d c i) := fun c i => by rw [hd]; rfl
  have hw : ∀ num, daWords intModulus (d'.rng g0) g1 s0.calls s1.calls num = daWords intModulus (d.rng g0) g1 s0.calls s1.calls num := by
    intro num
    unfold daWords firstN
    generalize List.range num = l
    rw [List.map_map, List.map_map, List.map_map]
    induction l with
    | nil => rfl
    | cons i l ih =>
      simp only [List.map_cons, otChoose_cons]
      rw [ih]
      refine congrArg (· :: _) ?_
      simp only [Function.comp_apply, MaskRng.rng, hd']
      exact flipMask_word _ _ _
  rw [ht]
  refine ⟨?_, ?_, ?_⟩
  · unfold stock0 daMade0
    simp only [hlen, hl, Bool.false_eq_true, if_false]
    split
    · rw [List.map_append, List.map_append, h3, mapIdx_append_bits, List.length_map]
      congr 1
      apply List.ext_getElem
      · simp only [List.length_map, firstN, List.length_range, List.length_mapIdx]
      · intro i h1 h2
        simp only [firstN, List.getElem_map, List.getElem_range, List.getElem_mapIdx, MaskRng.rng]
        rw [hd', flipMask_bit, h.len]
    · exact h3
  · unfold stock1 daMade1
    simp only [hl, Bool.false_eq_true, if_false, hw]
  · unfold stockSeen daSeen
    simp only [hl, Bool.false_eq_true, if_false, hw]

end Verif

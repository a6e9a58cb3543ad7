import Verif.PropsFirst

/-!
# C67 for AND and OR

The client draws a word more for one of the two values (client.cpp:379-393), so all later draws are taken one block further on. The change of
the draws that flips the first value therefore moves the blocks (and bits) of the rest of the run by one place.
-/

namespace Verif

/-- The values at the places from `q` to `q + M` moved one place up (`f = true`; the last one goes to `q`) or down. `comb` combines the value moved
between `q` and `q + 1` with the one moved between `q` and `q + M`. -/
def turn {α : Type} (comb : α → α → α) (q M : ℕ) (f : Bool) (B : ℕ → α) (i : ℕ) : α :=
  if f then (if i = q then B (q + M) else if i = q + 1 then comb (B q) (B (q + M)) else if q + 1 < i ∧ i ≤ q + M then B (i - 1) else B i)
  else (if i = q then comb (B (q + 1)) (B q) else if q < i ∧ i < q + M then B (i + 1) else if i = q + M then B q else B i)

theorem turn_turn {α : Type} {comb : α → α → α} (hc : ∀ a b, comb (comb a b) b = a) {q M : ℕ} (hM : 2 ≤ M) (f : Bool) (B : ℕ → α) :
    turn comb q M (!f) (turn comb q M f B) = B := by
  funext i
  have n1 : q + M ≠ q := by omega
  have n2 : q + M ≠ q + 1 := by omega
  cases f
  · simp only [turn, Bool.not_false, if_true, Bool.false_eq_true, if_false]
    by_cases h1 : i = q
    · subst h1
      rw [if_pos rfl, if_neg n1, if_neg (by omega)]
    by_cases h2 : i = q + 1
    · subst h2
      rw [if_neg h1, if_pos rfl, if_neg n1, if_neg (by omega), hc]
    by_cases h3 : q + 1 < i ∧ i ≤ q + M
    · rw [if_neg h1, if_neg h2, if_pos h3, if_neg (by omega), if_pos (by omega), Nat.sub_add_cancel (by omega)]
    · rw [if_neg h1, if_neg h2, if_neg h3, if_neg h1, if_neg (by omega), if_neg (by omega)]
  · simp only [turn, Bool.not_true, if_true, Bool.false_eq_true, if_false]
    by_cases h1 : i = q
    · subst h1
      rw [if_pos rfl, if_neg (by omega), hc]
    by_cases h2 : q < i ∧ i < q + M
    · rw [if_neg h1, if_pos h2, if_neg (by omega), if_neg (by omega), if_pos (by omega), Nat.add_sub_cancel]
    by_cases h3 : i = q + M
    · rw [if_neg h1, if_neg h2, if_pos h3, h3]
    · rw [if_neg h1, if_neg h2, if_neg h3, if_neg h1, if_neg (by omega), if_neg (by omega)]

theorem turn_out {α : Type} {comb : α → α → α} {q M : ℕ} {f : Bool} {B : ℕ → α} {i : ℕ} (hM : 2 ≤ M) (h : i < q ∨ q + M < i) : turn comb q M f B i = B i := by
  unfold turn
  cases f
  · rw [if_neg (by simp), if_neg (by omega), if_neg (by omega), if_neg (by omega)]
  · rw [if_pos rfl, if_neg (by omega), if_neg (by omega), if_neg (by omega)]

theorem turn_congr {α : Type} {comb : α → α → α} {q M : ℕ} {f : Bool} {B B' : ℕ → α} {i : ℕ} (hM : 2 ≤ M)
    (h : ∀ j, j = i ∨ (q ≤ j ∧ j ≤ q + M) → B j = B' j) : turn comb q M f B i = turn comb q M f B' i := by
  unfold turn
  rw [h q (.inr (by omega)), h (q + M) (.inr (by omega)), h (q + 1) (.inr (by omega)), h i (.inl rfl)]
  split_ifs <;> first | rfl | exact h _ (.inr (by omega))

/-- The generator with the first value of a run of AND (`isAnd`) or OR flipped and the later draws moved by one block. `c` is the number of blocks taken
for a bit. -/
def turnPrg (comb : BitVec 128 → BitVec 128 → BitVec 128) (isAnd : Bool) (c M : ℕ) (g : Prg) : Prg :=
  let f := g.bit g.pos 1 0 == isAnd
  { g with
    aes := fun b => if b.toNat < 2 ^ 64 then turn comb (g.pos + c) M f g.blk b.toNat else g.aes b
    bit := fun p k i => if k = 1 ∧ i = 0 then (if p = g.pos then !g.bit p 1 0 else turn (fun a _ => a) (g.pos + c) M f (fun p => g.bit p 1 0) p)
      else g.bit p k i }

section
variable {comb : BitVec 128 → BitVec 128 → BitVec 128} (hcomb : ∀ a b, comb (comb a b) b = a) {isAnd : Bool} {c M : ℕ} {g : Prg}

theorem turn_blk {i : ℕ} (hi : i < 2 ^ 64) : (turnPrg comb isAnd c M g).blk i = turn comb (g.pos + c) M (g.bit g.pos 1 0 == isAnd) g.blk i := by
  have e : ((BitVec.ofNat 64 i).setWidth 128 : BitVec 128).toNat = i := by
    rw [BitVec.toNat_setWidth, BitVec.toNat_ofNat, Nat.mod_eq_of_lt hi, Nat.mod_eq_of_lt (by omega)]
  show (if _ then _ else _) = _
  rw [if_pos (by rw [e]; exact hi), e]

theorem turn_first : (turnPrg comb isAnd c M g).bit g.pos 1 0 = !g.bit g.pos 1 0 := by
  simp only [turnPrg, and_self, if_true]

theorem turn_bit {p : ℕ} (hp : p ≠ g.pos) :
    (turnPrg comb isAnd c M g).bit p 1 0 = turn (fun a _ => a) (g.pos + c) M (g.bit g.pos 1 0 == isAnd) (fun p => g.bit p 1 0) p := by
  simp only [turnPrg, and_self, if_true, if_neg hp]

include hcomb in
theorem turnPrg_turn (hc : 1 ≤ c) (hM : 2 ≤ M) (hb : g.pos + c + M < 2 ^ 64) : turnPrg comb isAnd c M (turnPrg comb isAnd c M g) = g := by
  have hf : ((turnPrg comb isAnd c M g).bit g.pos 1 0 == isAnd) = !(g.bit g.pos 1 0 == isAnd) := by
    rw [turn_first]; cases g.bit g.pos 1 0 <;> cases isAnd <;> rfl
  have hbits : (fun p => (turnPrg comb isAnd c M g).bit p 1 0) = fun p => if p = g.pos then !g.bit p 1 0 else
      turn (fun a _ => a) (g.pos + c) M (g.bit g.pos 1 0 == isAnd) (fun p => g.bit p 1 0) p := by
    funext p
    by_cases hp : p = g.pos
    · rw [if_pos hp, hp, turn_first]
    · rw [if_neg hp, turn_bit hp]
  have key : turnPrg comb isAnd c M (turnPrg comb isAnd c M g) = ⟨g.aes, g.bit, g.next, g.pos⟩ := by
    show Prg.mk _ _ _ _ = _
    congr 1
    · funext b
      show (if b.toNat < 2 ^ 64 then turn comb (g.pos + c) M ((turnPrg comb isAnd c M g).bit g.pos 1 0 == isAnd) (turnPrg comb isAnd c M g).blk b.toNat
        else if b.toNat < 2 ^ 64 then _ else g.aes b) = _
      split
      · rename_i hb'
        rw [hf]
        have hin : ∀ i, i < 2 ^ 64 → (turnPrg comb isAnd c M g).blk i = turn comb (g.pos + c) M (g.bit g.pos 1 0 == isAnd) g.blk i := fun i hi => turn_blk hi
        have e : turn comb (g.pos + c) M (!(g.bit g.pos 1 0 == isAnd)) (turnPrg comb isAnd c M g).blk b.toNat =
            turn comb (g.pos + c) M (!(g.bit g.pos 1 0 == isAnd)) (turn comb (g.pos + c) M (g.bit g.pos 1 0 == isAnd) g.blk) b.toNat := by
          exact turn_congr hM fun j hj => hin j (by omega)
        rw [e, turn_turn hcomb hM]
        show g.aes _ = _
        congr 1
        apply BitVec.eq_of_toNat_eq
        rw [BitVec.toNat_setWidth, BitVec.toNat_ofNat, Nat.mod_eq_of_lt hb', Nat.mod_eq_of_lt b.isLt]
      · rfl
    · funext p k i
      show (if k = 1 ∧ i = 0 then (if p = g.pos then !(turnPrg comb isAnd c M g).bit p 1 0 else
          turn (fun a _ => a) (g.pos + c) M ((turnPrg comb isAnd c M g).bit g.pos 1 0 == isAnd) (fun p => (turnPrg comb isAnd c M g).bit p 1 0) p)
        else if k = 1 ∧ i = 0 then _ else g.bit p k i) = _
      split
      · rename_i h
        obtain ⟨rfl, rfl⟩ := h
        split
        · rename_i hp
          rw [hp, turn_first, Bool.not_not]
        · rename_i hp
          have e : turn (fun a _ => a) (g.pos + c) M (!(g.bit g.pos 1 0 == isAnd)) (fun p => (turnPrg comb isAnd c M g).bit p 1 0) p =
              turn (fun a _ => a) (g.pos + c) M (!(g.bit g.pos 1 0 == isAnd))
                (turn (fun a _ => a) (g.pos + c) M (g.bit g.pos 1 0 == isAnd) (fun p => g.bit p 1 0)) p := by
            have hin : ∀ p, p ≠ g.pos → (turnPrg comb isAnd c M g).bit p 1 0 =
              turn (fun a _ => a) (g.pos + c) M (g.bit g.pos 1 0 == isAnd) (fun p => g.bit p 1 0) p := fun p hp => turn_bit hp
            exact turn_congr hM fun j hj => hin j (by omega)
          rw [hf, e, turn_turn (fun _ _ => rfl) hM]
      · rfl
  exact key

end

/-- A change of the draws, for both ways to combine blocks. -/
theorem turn_redraw {comb : BitVec 128 → BitVec 128 → BitVec 128} (hcomb : ∀ a b, comb (comb a b) b = a) (isAnd : Bool) {c M : ℕ} (hc : 1 ≤ c)
    (hM : 2 ≤ M) : ∃ σ : Prg ≃ Prg, Redraw σ ∧ (∀ g, σ (σ g) = g) ∧ ∀ g : Prg, g.pos + c + M < 2 ^ 64 → σ g = turnPrg comb isAnd c M g := by
  have inv : Function.Involutive fun g : Prg => if g.pos + c + M < 2 ^ 64 then turnPrg comb isAnd c M g else g := fun g => by
    dsimp only
    split
    · rename_i h
      rw [if_pos (show (turnPrg comb isAnd c M g).pos + c + M < 2 ^ 64 from h), turnPrg_turn hcomb hc hM h]
    · rfl
  refine ⟨inv.toPerm, ⟨fun g => ?_, fun g => ?_, fun next pos => ⟨(Finset.range (pos + c + M + 1)).image fun p => (p, 1, 0), fun g _ hp p n i hS => ?_⟩⟩,
    inv, fun g h => if_pos h⟩
  · show (if _ then _ else _ : Prg).pos = _; split <;> rfl
  · show (if _ then _ else _ : Prg).next = _; split <;> rfl
  · show (if _ then _ else _ : Prg).bit p n i = _
    split
    · show (if n = 1 ∧ i = 0 then (if p = g.pos then _ else _) else _) = _
      split
      · rename_i h
        obtain ⟨rfl, rfl⟩ := h
        have : pos + c + M + 1 ≤ p := by
          by_contra h
          exact hS (Finset.mem_image.2 ⟨p, Finset.mem_range.2 (by omega), rfl⟩)
        rw [if_neg (by omega), turn_out hM (by omega)]
      · rfl
    · rfl

/-! ## The rest of a run one block further on -/

/-- `g'` is one block further on than `g`, and its blocks and bits up to `e` are those of `g` moved by one. -/
structure Moved (c e : ℕ) (g g' : Prg) : Prop where
  pos : g'.pos = g.pos + 1
  next : ∀ p, g.next p 1 = p + c ∧ g'.next p 1 = p + c
  blk : ∀ i, g.pos ≤ i → i ≤ e → g'.blk (i + 1) = g.blk i
  bit : ∀ p, g.pos ≤ p → p ≤ e → g'.bit (p + 1) 1 0 = g.bit p 1 0

theorem xorOne_zero {isAnd : Bool} {c : ℕ} {g : Prg} (hn : g.next g.pos 1 = g.pos + c) (hv : g.bit g.pos 1 0 = isAnd) :
    xorOne isAnd g = (((isAnd, 0#64), g.wordAt (g.pos + c) 0, g.wordAt (g.pos + c) 0), { g with pos := g.pos + c + 1 }) := by
  have e : ∀ a : U64, clientXor isAnd isAnd 0#64 a = (a, a) := fun a => by
    cases isAnd <;> simp [clientXor, xorEncode]
  have : xorOne isAnd g = (((g.bit g.pos 1 0, 0#64), clientXor isAnd (g.bit g.pos 1 0) 0#64 (g.wordAt (g.next g.pos 1) 0)),
      { g with pos := g.next g.pos 1 + 1 }) := by
    unfold xorOne
    dsimp only
    rw [if_pos (show g.bool.1 = isAnd from hv)]
    rfl
  rw [this, hn, hv, e]

theorem xorOne_rand {isAnd : Bool} {c : ℕ} {g : Prg} (hn : g.next g.pos 1 = g.pos + c) (hv : g.bit g.pos 1 0 = !isAnd) :
    xorOne isAnd g = (((!isAnd, g.wordAt (g.pos + c) 0), g.wordAt (g.pos + c + 1) 0, g.wordAt (g.pos + c + 1) 0 ^^^ g.wordAt (g.pos + c) 0),
      { g with pos := g.pos + c + 1 + 1 }) := by
  have e : ∀ a r : U64, clientXor isAnd (!isAnd) r a = (a, a ^^^ r) := fun a r => by
    cases isAnd <;> simp [clientXor, xorEncode]
  have hne : ¬ g.bit g.pos 1 0 = isAnd := by rw [hv]; simp
  have : xorOne isAnd g = (((g.bit g.pos 1 0, g.wordAt (g.next g.pos 1) 0), clientXor isAnd (g.bit g.pos 1 0) (g.wordAt (g.next g.pos 1) 0)
      (g.wordAt (g.next g.pos 1 + 1) 0)), { g with pos := g.next g.pos 1 + 1 + 1 }) := by
    unfold xorOne
    dsimp only
    rw [if_neg (show ¬ g.bool.1 = isAnd from hne)]
    rfl
  rw [this, hn, hv, e]

theorem Moved.step {c e : ℕ} {g g' : Prg} (h : Moved c e g g') (isAnd : Bool) (he : g.pos + c + 2 ≤ e) :
    (xorOne isAnd g').1 = (xorOne isAnd g).1 ∧ Moved c e (xorOne isAnd g).2 (xorOne isAnd g').2 ∧
      makePk (xorOne isAnd g').2 = makePk (xorOne isAnd g).2 ∧ (xorOne isAnd g).2.pos ≤ g.pos + c + 2 := by
  have hb := h.bit g.pos le_rfl (by omega)
  rw [← h.pos] at hb
  have hw : ∀ i, g.pos ≤ i → i ≤ e → g'.wordAt (i + 1) 0 = g.wordAt i 0 := fun i h1 h2 => by
    simp only [Prg.wordAt, Nat.zero_div, Nat.add_zero]
    rw [h.blk i h1 h2]
  have n3 : g'.pos + c = g.pos + c + 1 := by rw [h.pos]; omega
  have mv : ∀ p, g.pos ≤ p → Moved c e { g with pos := p } { g' with pos := p + 1 } := fun p hp =>
    ⟨rfl, h.next, fun i hi he => h.blk i (hp.trans hi) he, fun i hi he => h.bit i (hp.trans hi) he⟩
  have pk : ∀ p, g.pos ≤ p → p ≤ e → makePk { g' with pos := p + 1 } = makePk { g with pos := p } := fun p h1 h2 =>
    congrArg pubKeyToHex (h.blk p h1 h2)
  rcases Bool.eq_or_eq_not (g.bit g.pos 1 0) isAnd with hv | hv
  · rw [xorOne_zero (h.next _).1 hv, xorOne_zero (h.next _).2 (hb.trans hv), n3, hw (g.pos + c) (by omega) (by omega)]
    exact ⟨rfl, mv _ (by omega), pk _ (by omega) (by omega), by dsimp only; omega⟩
  · rw [xorOne_rand (h.next _).1 hv, xorOne_rand (h.next _).2 (hb.trans hv), n3, hw (g.pos + c) (by omega) (by omega),
      hw (g.pos + c + 1) (by omega) (by omega)]
    exact ⟨rfl, mv _ (by omega), pk _ (by omega) (by omega), by dsimp only; omega⟩

theorem upload_moved (isAnd : Bool) {c e : ℕ} : ∀ (n : ℕ) (g g' : Prg), Moved c e g g' → g.pos + (c + 2) * n ≤ e →
    uploadLoop (xorOne isAnd) n g' = uploadLoop (xorOne isAnd) n g
  | 0, _, _, _, _ => rfl
  | n + 1, g, g', h, he => by
    have e1 : (c + 2) * (n + 1) = (c + 2) * n + (c + 2) := Nat.mul_succ _ _
    obtain ⟨a, b, k, q⟩ := h.step isAnd (by omega)
    rw [uploadLoop, uploadLoop, a, k, upload_moved isAnd n _ _ b (by omega)]

theorem FirstRow.symm {ρ α : Type} {one : Prg → (ρ × α × α) × Prg} {n : ℕ} {g g' : Prg} {r r' : Row ρ α} (h : FirstRow one n g g' r r') :
    FirstRow one n g' g r' r := by
  obtain ⟨l, h1, h2⟩ := h
  exact ⟨l, h2, h1⟩

/-- The blocks that a run of AND or OR with `n + 1` submissions may take, and one more. -/
def xorSpan (c n : ℕ) : ℕ := (c + 2) * (n + 1) + 2

/-- The first rows, if the first value of `g` is the one for which no word is drawn. -/
theorem turn_rows (comb : BitVec 128 → BitVec 128 → BitVec 128) {isAnd : Bool} {c n : ℕ} (hc : 1 ≤ c) {g : Prg} (hn : ∀ p, g.next p 1 = p + c)
    (hb : g.pos + c + xorSpan c n < 2 ^ 64) (hv : g.bit g.pos 1 0 = isAnd) :
    ∃ k w, FirstRow (xorOne isAnd) n g (turnPrg comb isAnd c (xorSpan c n) g)
      ⟨k, (isAnd, 0#64), (g.blk (g.pos + c)).extractLsb' 0 64, (g.blk (g.pos + c)).extractLsb' 0 64⟩
      ⟨k, (!isAnd, w.extractLsb' 0 64), (comb (g.blk (g.pos + c)) w).extractLsb' 0 64,
        (comb (g.blk (g.pos + c)) w).extractLsb' 0 64 ^^^ w.extractLsb' 0 64⟩ := by
  have hM : xorSpan c n = (c + 2) * n + (c + 2) + 2 := rfl
  generalize xorSpan c n = M at hM hb
  set g' := turnPrg comb isAnd c M g with hg'
  have hf : (g.bit g.pos 1 0 == isAnd) = true := by rw [hv]; simp
  have hv' : g'.bit g'.pos 1 0 = !isAnd := by
    show g'.bit g.pos 1 0 = _
    rw [hg', turn_first, hv]
  have b0 : g'.blk (g.pos + c) = g.blk (g.pos + c + M) := by
    rw [hg', turn_blk (by omega), hf, turn, if_pos rfl, if_pos rfl]
  have b1 : g'.blk (g.pos + c + 1) = comb (g.blk (g.pos + c)) (g.blk (g.pos + c + M)) := by
    rw [hg', turn_blk (by omega), hf, turn, if_pos rfl, if_neg (by omega), if_pos rfl]
  have b2 : ∀ i, g.pos + c + 1 ≤ i → i + 1 ≤ g.pos + c + M → g'.blk (i + 1) = g.blk i := fun i h1 h2 => by
    rw [hg', turn_blk (by omega), hf, turn, if_pos rfl, if_neg (by omega), if_neg (by omega), if_pos (by omega), Nat.add_sub_cancel]
  have b3 : ∀ i, g.pos + c + 1 ≤ i → i + 1 ≤ g.pos + c + M → g'.bit (i + 1) 1 0 = g.bit i 1 0 := fun i h1 h2 => by
    rw [hg', turn_bit (by omega), hf, turn, if_pos rfl, if_neg (by omega), if_neg (by omega), if_pos (by omega), Nat.add_sub_cancel]
  have o := xorOne_zero (hn g.pos) hv
  have o' : xorOne isAnd g' = _ := xorOne_rand (hn g'.pos) hv'
  have hmv : Moved c (g.pos + c + M - 1) { g with pos := g.pos + c + 1 } { g' with pos := g.pos + c + 1 + 1 } :=
    ⟨rfl, fun p => ⟨hn p, hn p⟩, fun i hi he => b2 i hi (by omega), fun i hi he => b3 i hi (by omega)⟩
  refine ⟨makePk { g with pos := g.pos + c + 1 }, g.blk (g.pos + c + M), uploadLoop (xorOne isAnd) n { g with pos := g.pos + c + 1 }, ?_, ?_⟩
  · rw [uploadLoop, o]
    rfl
  · rw [uploadLoop, o']
    show (⟨makePk { g' with pos := g.pos + c + 1 + 1 }, (!isAnd, (g'.blk (g.pos + c)).extractLsb' 0 64), (g'.blk (g.pos + c + 1)).extractLsb' 0 64,
      (g'.blk (g.pos + c + 1)).extractLsb' 0 64 ^^^ (g'.blk (g.pos + c)).extractLsb' 0 64⟩ : Row (Bool × U64) U64) ::
      uploadLoop (xorOne isAnd) n { g' with pos := g.pos + c + 1 + 1 } = _
    rw [upload_moved isAnd n _ _ hmv (by dsimp only; omega), b0, b1,
      show makePk { g' with pos := g.pos + c + 1 + 1 } = makePk { g with pos := g.pos + c + 1 } from congrArg pubKeyToHex (b2 _ le_rfl (by omega))]

/-- C67 for AND and OR, for a way of combining blocks. -/
theorem xor_flip {comb : BitVec 128 → BitVec 128 → BitVec 128} (hcomb : ∀ a b, comb (comb a b) b = a) (isAnd : Bool) {c : ℕ} (hc : 1 ≤ c) (n : ℕ)
    {P : Row (Bool × U64) U64 → Row (Bool × U64) U64 → Prop} (hP : ∀ r r', P r r' → P r' r)
    (h : ∀ k a w, P ⟨k, (isAnd, 0#64), a.extractLsb' 0 64, a.extractLsb' 0 64⟩
      ⟨k, (!isAnd, w.extractLsb' 0 64), (comb a w).extractLsb' 0 64, (comb a w).extractLsb' 0 64 ^^^ w.extractLsb' 0 64⟩) :
    ∃ σ : Prg ≃ Prg, Redraw σ ∧ ∀ g : Prg, (∀ p, g.next p 1 = p + c) → g.pos + c + xorSpan c n < 2 ^ 64 →
      ∃ r r', FirstRow (xorOne isAnd) n g (σ g) r r' ∧ P r r' := by
  obtain ⟨σ, hσ, inv, e⟩ := turn_redraw hcomb isAnd hc (M := xorSpan c n) (by simp [xorSpan])
  have main : ∀ g : Prg, (∀ p, g.next p 1 = p + c) → g.pos + c + xorSpan c n < 2 ^ 64 → g.bit g.pos 1 0 = isAnd →
      ∃ r r', FirstRow (xorOne isAnd) n g (σ g) r r' ∧ P r r' := fun g hn hb hv => by
    obtain ⟨k, w, hf⟩ := turn_rows comb hc hn hb hv
    rw [e g hb]
    exact ⟨_, _, hf, h _ _ _⟩
  refine ⟨σ, hσ, fun g hn hb => ?_⟩
  rcases Bool.eq_or_eq_not (g.bit g.pos 1 0) isAnd with hv | hv
  · exact main g hn hb hv
  · obtain ⟨r, r', hf, hp⟩ := main (σ g) (by rw [hσ.next]; exact hn) (by rw [hσ.pos]; exact hb) (by
      rw [hσ.pos, e g hb, turn_first, hv, Bool.not_not])
    rw [inv] at hf
    exact ⟨r', r, hf.symm, hP _ _ hp⟩

/-- C67 for AND and OR, server 0. `c` is the number of blocks that `random_bool` takes for a bit. -/
theorem C67_xor_server0 (isAnd : Bool) {c : ℕ} (hc : 1 ≤ c) (n : ℕ) (mx : BitVec 32) :
    ∃ σ : Prg ≃ Prg, Redraw σ ∧ ∀ g : Prg, (∀ p, g.next p 1 = p + c) → g.pos + c + xorSpan c n < 2 ^ 64 →
      (xorClient isAnd (n + 1) mx (σ g)).1 = (xorClient isAnd (n + 1) mx g).1 ∧
      ∃ r r', FirstRow (xorOne isAnd) n g (σ g) r r' ∧ r'.real.1 = !r.real.1 := by
  obtain ⟨σ, hσ, H⟩ := xor_flip (comb := fun a _ => a) (fun _ _ => rfl) isAnd hc n
    (P := fun r r' => r'.real.1 = (!r.real.1) ∧ (r'.pk, r'.share0) = (r.pk, r.share0)) (fun r r' h => ⟨by rw [h.1, Bool.not_not], h.2.symm⟩)
    fun k a w => ⟨rfl, rfl⟩
  refine ⟨σ, hσ, fun g hn hb => ?_⟩
  obtain ⟨r, r', hf, h1, h2⟩ := H g hn hb
  refine ⟨?_, r, r', hf, h1⟩
  obtain ⟨l, e1, e2⟩ := hf
  simp only [xorClient, e1, e2, sent0, List.map_cons, h2]

/-- C67 for AND and OR, server 1. -/
theorem C67_xor_server1 (isAnd : Bool) {c : ℕ} (hc : 1 ≤ c) (n : ℕ) (mx : BitVec 32) :
    ∃ σ : Prg ≃ Prg, Redraw σ ∧ ∀ g : Prg, (∀ p, g.next p 1 = p + c) → g.pos + c + xorSpan c n < 2 ^ 64 →
      (xorClient isAnd (n + 1) mx (σ g)).2.1 = (xorClient isAnd (n + 1) mx g).2.1 ∧
      ∃ r r', FirstRow (xorOne isAnd) n g (σ g) r r' ∧ r'.real.1 = !r.real.1 := by
  obtain ⟨σ, hσ, H⟩ := xor_flip (comb := fun a b => a ^^^ b) (fun a b => by rw [BitVec.xor_assoc, BitVec.xor_self, BitVec.xor_zero]) isAnd hc n
    (P := fun r r' => r'.real.1 = (!r.real.1) ∧ (r'.pk, r'.share1) = (r.pk, r.share1)) (fun r r' h => ⟨by rw [h.1, Bool.not_not], h.2.symm⟩)
    fun k a w => ⟨rfl, by
      rw [BitVec.extractLsb'_xor, BitVec.xor_assoc, BitVec.xor_self, BitVec.xor_zero]⟩
  refine ⟨σ, hσ, fun g hn hb => ?_⟩
  obtain ⟨r, r', hf, h1, h2⟩ := H g hn hb
  refine ⟨?_, r, r', hf, h1⟩
  obtain ⟨l, e1, e2⟩ := hf
  simp only [xorClient, e1, e2, sent1, List.map_cons, h2]

/-- `plainPrg` takes two blocks for a bit; 1000 submissions. -/
example : (∀ p, plainPrg.next p 1 = p + 2) ∧ plainPrg.pos + 2 + xorSpan 2 999 < 2 ^ 64 := ⟨fun _ => rfl, by decide⟩

end Verif

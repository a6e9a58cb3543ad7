import Verif.PropsUpload

/-! # Other draws of the client's generator -/

namespace Verif

/-! ## Changing blocks and bits -/

/-- The generator with word `h` (0 or 1) of block `i` XORed with `W i h`, and the bits of `random_bool` XORed with `E`. -/
def Prg.shift (W : ℕ → ℕ → U64) (E : ℕ → ℕ → ℕ → Bool) (g : Prg) : Prg :=
  { g with aes := fun c => g.aes c ^^^ (W c.toNat 1 ++ W c.toNat 0), bit := fun p n i => g.bit p n i ^^ E p n i }

section
variable {W : ℕ → ℕ → U64} {E : ℕ → ℕ → ℕ → Bool} {g : Prg}

theorem ctr_toNat {i : ℕ} (hi : i < 2 ^ 64) : ((BitVec.ofNat 64 i).setWidth 128).toNat = i := by
  rw [BitVec.toNat_setWidth, BitVec.toNat_ofNat, Nat.mod_eq_of_lt hi, Nat.mod_eq_of_lt (by omega)]

theorem blk_shift {i : ℕ} (hi : i < 2 ^ 64) : (g.shift W E).blk i = g.blk i ^^^ (W i 1 ++ W i 0) := by
  simp only [Prg.blk, Prg.shift, ctr_toNat hi]

theorem blk_same {i : ℕ} (hi : i < 2 ^ 64) (h0 : W i 0 = 0#64) (h1 : W i 1 = 0#64) : (g.shift W E).blk i = g.blk i := by
  rw [blk_shift hi, h0, h1]
  exact BitVec.xor_zero

theorem wordAt_shift {p j : ℕ} (h : p + j / 2 < 2 ^ 64) : (g.shift W E).wordAt p j = g.wordAt p j ^^^ W (p + j / 2) (j % 2) := by
  unfold Prg.wordAt
  rw [blk_shift h]
  apply BitVec.eq_of_getLsbD_eq
  intro i hi
  rcases Nat.mod_two_eq_zero_or_one j with e | e <;> rw [e] <;>
    simp only [BitVec.getLsbD_extractLsb', BitVec.getLsbD_xor, BitVec.getLsbD_append, Nat.mul_zero, Nat.zero_add, Nat.mul_one, hi, decide_true, Bool.true_and]
  · simp
  · have h2 : ¬ (64 + i < 64) := by omega
    simp [h2]

theorem shift_shift : (g.shift W E).shift W E = g := by
  obtain ⟨aes, bit, next, pos⟩ := g
  simp [Prg.shift, BitVec.xor_assoc]

end

/-- A change of the draws that leaves the distribution of a generator with uniform and independent blocks and bits as it is: a bijection that keeps the
position and everything but the blocks (of which there are finitely many) and finitely many bits. -/
structure Redraw (σ : Prg ≃ Prg) : Prop where
  pos : ∀ g, (σ g).pos = g.pos
  next : ∀ g, (σ g).next = g.next
  bits : ∀ (next : ℕ → ℕ → ℕ) (pos : ℕ), ∃ S : Finset (ℕ × ℕ × ℕ), ∀ g : Prg, g.next = next → g.pos = pos → ∀ p n i, (p, n, i) ∉ S →
    (σ g).bit p n i = g.bit p n i

theorem shift_redraw (W : Prg → ℕ → ℕ → U64) (E : Prg → ℕ → ℕ → ℕ → Bool) (hW : ∀ g, W (g.shift (W g) (E g)) = W g)
    (hE : ∀ g, E (g.shift (W g) (E g)) = E g)
    (hf : ∀ (next : ℕ → ℕ → ℕ) (pos : ℕ), ∃ S : Finset (ℕ × ℕ × ℕ), ∀ g : Prg, g.next = next → g.pos = pos → ∀ p n i, (p, n, i) ∉ S → E g p n i = false) :
    ∃ σ : Prg ≃ Prg, Redraw σ ∧ ∀ g, σ g = g.shift (W g) (E g) := by
  have inv : Function.Involutive fun g : Prg => g.shift (W g) (E g) := fun g => by
    dsimp only
    rw [hW, hE, shift_shift]
  refine ⟨inv.toPerm, ⟨fun g => rfl, fun g => rfl, fun next pos => ?_⟩, fun g => rfl⟩
  obtain ⟨S, hS⟩ := hf next pos
  refine ⟨S, fun g h1 h2 p n i hi => ?_⟩
  show (g.bit p n i ^^ E g p n i) = _
  rw [hS g h1 h2 p n i hi, Bool.xor_false]

/-- A change of blocks only. -/
theorem shift_blocks (W : Prg → ℕ → ℕ → U64) (hW : ∀ g, W (g.shift (W g) fun _ _ _ => false) = W g) :
    ∃ σ : Prg ≃ Prg, Redraw σ ∧ ∀ g, σ g = g.shift (W g) fun _ _ _ => false :=
  shift_redraw W (fun _ _ _ _ => false) hW (fun _ => rfl) fun _ _ => ⟨∅, fun _ _ _ _ _ _ _ => rfl⟩

/-! ## Changing the words of one call of `random_data` -/

/-- `f j` at the place of word `j` of `k` words drawn at position `p`; 0 elsewhere. -/
def seg (p k : ℕ) (f : ℕ → U64) (i h : ℕ) : U64 := if p ≤ i ∧ i < p + (k + 1) / 2 then f (2 * (i - p) + h) else 0#64

theorem seg_hit {p k : ℕ} {f : ℕ → U64} {j : ℕ} (hj : j < k) : seg p k f (p + j / 2) (j % 2) = f j := by
  rw [seg, if_pos ⟨by omega, by omega⟩]
  congr 1; omega

theorem seg_miss {p k : ℕ} {f : ℕ → U64} {i h : ℕ} (hi : i < p ∨ p + (k + 1) / 2 ≤ i) : seg p k f i h = 0#64 := by
  rw [seg, if_neg (by omega)]

/-! ## The rest of a run does not depend on earlier blocks -/

/-- Two generators at the same position, with the same blocks from there up to `e`, and the same later bits. -/
structure Same (e : ℕ) (g g' : Prg) : Prop where
  pos : g'.pos = g.pos
  next : g'.next = g.next
  blk : ∀ i, g.pos ≤ i → i ≤ e → g'.blk i = g.blk i
  bit : ∀ p n i, g.pos ≤ p → g'.bit p n i = g.bit p n i

theorem Same.wordAt {e : ℕ} {g g' : Prg} (h : Same e g g') {p j : ℕ} (hp : g.pos ≤ p) (he : p + j / 2 ≤ e) : g'.wordAt p j = g.wordAt p j := by
  rw [Prg.wordAt, Prg.wordAt, h.blk _ (by omega) he]

theorem Same.move {e : ℕ} {g g' : Prg} (h : Same e g g') {p : ℕ} (hp : g.pos ≤ p) : Same e { g with pos := p } { g' with pos := p } :=
  ⟨rfl, h.next, fun i hi he => h.blk i (hp.trans hi) he, fun q n i hq => h.bit q n i (hp.trans hq)⟩

theorem Same.words {e : ℕ} {g g' : Prg} (h : Same e g g') {k : ℕ} (he : g.pos + (k + 1) / 2 ≤ e + 1) :
    (g'.words k).1 = (g.words k).1 ∧ (g'.words k).2 = { g' with pos := g.pos + (k + 1) / 2 } := by
  simp only [Prg.words, h.pos, and_true]
  refine List.map_congr_left fun j hj => h.wordAt le_rfl ?_
  have := List.mem_range.1 hj
  omega

theorem Same.word {e : ℕ} {g g' : Prg} (h : Same e g g') (he : g.pos ≤ e) : g'.word.1 = g.word.1 ∧ g'.word.2 = { g' with pos := g.pos + 1 } := by
  simp only [Prg.word, h.pos, and_true]
  exact h.wordAt le_rfl (by simpa using he)

theorem Same.pk {e : ℕ} {g g' : Prg} (h : Same e g g') (he : g.pos ≤ e) : makePk g' = makePk g := by
  rw [makePk, makePk, h.pos, h.blk _ le_rfl he]

/-- `one` depends on the blocks it takes only. -/
def Local {ρ α : Type} (one : Prg → (ρ × α × α) × Prg) : Prop :=
  ∀ g g' e, g.Steady → Same e g g' → (one g).2.pos ≤ e + 1 → (one g').1 = (one g).1 ∧ (one g').2 = { g' with pos := (one g).2.pos }

theorem upload_same {ρ α : Type} {one : Prg → (ρ × α × α) × Prg} {c : ℕ} (ht : Takes1 one c) (hl : Local one) :
    ∀ (n : ℕ) (g g' : Prg), g.Steady → Same (g.pos + c * n) g g' → uploadLoop one n g' = uploadLoop one n g
  | 0, _, _, _, _ => rfl
  | n + 1, g, g', hg, h => by
    obtain ⟨p, h1, h2, h3⟩ := ht g hg
    have e : c * (n + 1) = c * n + c := Nat.mul_succ c n
    obtain ⟨a, b⟩ := hl g g' _ hg h (by rw [h3]; dsimp only; omega)
    have hs : Same (g.pos + c * (n + 1)) (one g).2 (one g').2 := by
      rw [b, h3]; exact h.move h1.le
    have hp : (one g).2.pos = p := by rw [h3]
    rw [uploadLoop, uploadLoop, a, hs.pk (by omega),
      upload_same ht hl n _ _ (by rw [h3]; exact hg) ⟨hs.pos, hs.next, fun i hi he => hs.blk i hi (by rw [hp] at he; omega), hs.bit⟩]

theorem int_local (nbits : ℕ) : Local (intOne nbits) := by
  intro g g' e hg h he
  have he : g.pos + 1 + 1 ≤ e + 1 := he
  obtain ⟨a, b⟩ := h.word (by omega)
  have h' : Same e { g with pos := g.pos + 1 } { g' with pos := g.pos + 1 } := h.move (by omega)
  obtain ⟨a', b'⟩ := h'.word (by dsimp only; omega)
  simp only [intOne, a, b, a', b']
  exact ⟨rfl, rfl⟩

theorem max_local (isMax : Bool) (B : ℕ) : Local (maxOne isMax B) := by
  intro g g' e hg h he
  have he : g.pos + 1 + (B + 1 + 1) / 2 + (B + 1 + 1) / 2 ≤ e + 1 := he
  obtain ⟨a, b⟩ := h.word (by omega)
  have h1 : Same e { g with pos := g.pos + 1 } { g' with pos := g.pos + 1 } := h.move (by omega)
  obtain ⟨a1, b1⟩ := h1.words (k := B + 1) (by dsimp only; omega)
  have h2 : Same e { g with pos := g.pos + 1 + (B + 1 + 1) / 2 } { g' with pos := g.pos + 1 + (B + 1 + 1) / 2 } := h.move (by omega)
  obtain ⟨a2, b2⟩ := h2.words (k := B + 1) (by dsimp only; omega)
  dsimp only at a1 b1 a2 b2
  simp only [maxOne, a, b, a1, b1, a2, b2]
  exact ⟨rfl, rfl⟩

theorem bit_local : Local bitOne := by
  intro g g' e hg h he
  have hn := (hg g.pos 1).1
  simp only [bitOne, Prg.bool, h.pos, h.next, h.bit _ _ _ le_rfl, h.bit _ _ _ hn.le, and_self]

theorem freq_local (nbits : ℕ) : Local (freqOne nbits) := by
  intro g g' e hg h he
  have hn := (hg (g.pos + 1) (1#64 <<< nbits : U64).toNat).1
  have he : g.next (g.pos + 1) (1#64 <<< nbits : U64).toNat ≤ e + 1 := he
  obtain ⟨a, b⟩ := h.word (by omega)
  have hb : g'.bit (g.pos + 1) (1#64 <<< nbits : U64).toNat = g.bit (g.pos + 1) (1#64 <<< nbits : U64).toNat :=
    funext fun i => h.bit _ _ _ (by omega)
  simp only [freqOne, a, b, Prg.bools, hb, h.next]
  exact ⟨rfl, rfl⟩

end Verif

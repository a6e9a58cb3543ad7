import Verif.LemmasRedraw
import Verif.PropsViewVar

/-!
# C67: the first value of a run of the client program is hidden from each server by what it is sent

The client program draws values, masks and keys from one generator. `C53_false_*` shows that the keys give the later values away.
Here: the first value (the only one, if there is one submission) stays hidden. If the value is replaced by any other one, there is a change of the
other draws, a bijection, under which the stream to the server and all other values are the same. Blocks and bits of the generator are taken
to be uniform and independent.
-/

namespace Verif

variable {ρ α : Type}

/-- The run of the client program with the first value replaced: the first rows are `r` and `r'`, the others are the same. -/
def FirstRow (one : Prg → (ρ × α × α) × Prg) (n : ℕ) (g g' : Prg) (r r' : Row ρ α) : Prop :=
  ∃ rest, uploadLoop one (n + 1) g = r :: rest ∧ uploadLoop one (n + 1) g' = r' :: rest

theorem first_row {one : Prg → (ρ × α × α) × Prg} {c : ℕ} (ht : Takes1 one c) (hl : Local one) {n : ℕ} {g g' : Prg} (hg : g.Steady)
    (hs : Same ((one g).2.pos + c * n) (one g).2 (one g').2) :
    FirstRow one n g g' ⟨makePk (one g).2, (one g).1.1, (one g).1.2.1, (one g).1.2.2⟩ ⟨makePk (one g).2, (one g').1.1, (one g').1.2.1, (one g').1.2.2⟩ := by
  obtain ⟨p, h1, h2, h3⟩ := ht g hg
  refine ⟨_, rfl, ?_⟩
  rw [uploadLoop, hs.pk (by omega), upload_same ht hl n _ _ (by rw [h3]; exact hg) hs]

theorem shift_later {one : Prg → (ρ × α × α) × Prg} {c : ℕ} {n : ℕ} {g : Prg} {W : ℕ → ℕ → U64} {E : ℕ → ℕ → ℕ → Bool} {p : ℕ}
    (e : (one g).2 = { g with pos := p }) (e' : (one (g.shift W E)).2 = { g.shift W E with pos := p }) (hc : p + c * n < 2 ^ 64)
    (hW : ∀ i h, p ≤ i → W i h = 0#64) (hE : ∀ q n i, p ≤ q → E q n i = false) :
    Same ((one g).2.pos + c * n) (one g).2 (one (g.shift W E)).2 := by
  rw [e, e']
  show Same (p + c * n) { g with pos := p } { g.shift W E with pos := p }
  refine ⟨rfl, rfl, fun i (hi : p ≤ i) he => blk_same (E := E) (by omega) (hW i 0 hi) (hW i 1 hi), fun q n i hq => ?_⟩
  show (g.bit q n i ^^ E q n i) = _
  rw [hE q n i hq, Bool.xor_false]

/-! ## INT_SUM -/

/-- C67 for INT_SUM, server 0. -/
theorem C67_int_sum_server0 {nbits : ℕ} (hb : nbits < 64) (n : ℕ) (mx : BitVec 32) {δ : U64} (hδ : δ.toNat < 2 ^ nbits) :
    ∃ σ : Prg ≃ Prg, Redraw σ ∧ ∀ g : Prg, g.Steady → g.pos + 2 * (n + 1) < 2 ^ 64 →
      (intSumClient nbits (n + 1) mx (σ g)).1 = (intSumClient nbits (n + 1) mx g).1 ∧
      ∃ r r', FirstRow (intOne nbits) n g (σ g) r r' ∧ r'.real = r.real ^^^ δ := by
  obtain ⟨σ, hσ, e⟩ := shift_blocks (fun g => seg g.pos 1 fun _ => δ) fun g => rfl
  refine ⟨σ, hσ, fun g hg hc => ?_⟩
  rw [e g]
  generalize hg' : g.shift (seg g.pos 1 fun _ => δ) (fun _ _ _ => false) = g'
  have w0 : g'.wordAt g.pos 0 = g.wordAt g.pos 0 ^^^ δ := by
    rw [← hg', wordAt_shift (by omega)]
    congr 1
    exact seg_hit (j := 0) (by omega)
  have w1 : g'.wordAt (g.pos + 1) 0 = g.wordAt (g.pos + 1) 0 := by
    rw [← hg', wordAt_shift (by omega), seg_miss (by omega)]
    exact BitVec.xor_zero
  have hp : g'.pos = g.pos := by rw [← hg']; rfl
  have one' : intOne nbits g' = (clientInt nbits (g.wordAt g.pos 0 ^^^ δ) (g.wordAt (g.pos + 1) 0), { g' with pos := g.pos + 1 + 1 }) := by
    rw [← w0, ← w1, ← hp]; rfl
  have hf := first_row (C59_int_blocks nbits) (int_local nbits) (n := n) (g' := g') hg (by
    rw [← hg'] at one' ⊢
    exact shift_later (p := g.pos + 1 + 1) rfl (by rw [one']) (by omega) (fun i h hi => seg_miss (by omega)) fun _ _ _ _ => rfl)
  refine ⟨?_, _, _, hf, ?_⟩
  · obtain ⟨rest, h1, h2⟩ := hf
    simp only [intSumClient, h1, h2, sent0, List.map_cons, one']
    rfl
  · simp only [one', clientInt]
    exact xor_mod_shl hb _ _ hδ

/-- C67 for INT_SUM, server 1. -/
theorem C67_int_sum_server1 {nbits : ℕ} (hb : nbits < 64) (n : ℕ) (mx : BitVec 32) {δ : U64} (hδ : δ.toNat < 2 ^ nbits) :
    ∃ σ : Prg ≃ Prg, Redraw σ ∧ ∀ g : Prg, g.Steady → g.pos + 2 * (n + 1) < 2 ^ 64 →
      (intSumClient nbits (n + 1) mx (σ g)).2.1 = (intSumClient nbits (n + 1) mx g).2.1 ∧
      ∃ r r', FirstRow (intOne nbits) n g (σ g) r r' ∧ r'.real = r.real ^^^ δ := by
  obtain ⟨σ, hσ, e⟩ := shift_blocks (fun g i h => seg g.pos 1 (fun _ => δ) i h ^^^ seg (g.pos + 1) 1 (fun _ => δ) i h) fun g => rfl
  refine ⟨σ, hσ, fun g hg hc => ?_⟩
  rw [e g]
  generalize hg' : g.shift (fun i h => seg g.pos 1 (fun _ => δ) i h ^^^ seg (g.pos + 1) 1 (fun _ => δ) i h) (fun _ _ _ => false) = g'
  have w0 : g'.wordAt g.pos 0 = g.wordAt g.pos 0 ^^^ δ := by
    rw [← hg', wordAt_shift (by omega), seg_hit (j := 0) (by omega), seg_miss (by omega), BitVec.xor_zero]
  have w1 : g'.wordAt (g.pos + 1) 0 = g.wordAt (g.pos + 1) 0 ^^^ δ := by
    rw [← hg', wordAt_shift (by omega), seg_miss (by omega), seg_hit (j := 0) (by omega), BitVec.zero_xor]
  have hp : g'.pos = g.pos := by rw [← hg']; rfl
  have one' : intOne nbits g' = (clientInt nbits (g.wordAt g.pos 0 ^^^ δ) (g.wordAt (g.pos + 1) 0 ^^^ δ), { g' with pos := g.pos + 1 + 1 }) := by
    rw [← w0, ← w1, ← hp]; rfl
  have hf := first_row (C59_int_blocks nbits) (int_local nbits) (n := n) (g' := g') hg (by
    rw [← hg'] at one' ⊢
    exact shift_later (p := g.pos + 1 + 1) rfl (by rw [one']) (by omega)
      (fun i h hi => by rw [seg_miss (by omega), seg_miss (by omega), BitVec.xor_zero]) fun _ _ _ _ => rfl)
  refine ⟨?_, _, _, hf, ?_⟩
  · obtain ⟨rest, h1, h2⟩ := hf
    have same : (clientInt nbits (g.wordAt g.pos 0 ^^^ δ) (g.wordAt (g.pos + 1) 0 ^^^ δ)).2.2 = (intOne nbits g).1.2.2 := by
      show (_ ^^^ _) % _ ^^^ (_ ^^^ _) % _ = _ % _ ^^^ _ % _
      rw [xor_mod_shl hb _ _ hδ, xor_mod_shl hb _ _ hδ, ← BitVec.xor_assoc, BitVec.xor_assoc _ δ, BitVec.xor_comm δ, ← BitVec.xor_assoc,
        BitVec.xor_assoc _ δ, BitVec.xor_self, BitVec.xor_zero]
      rfl
    simp only [intSumClient, h1, h2, sent1, List.map_cons, one', same]
  · simp only [one', clientInt]
    exact xor_mod_shl hb _ _ hδ

/-! ## BIT_SUM -/

/-- C67 for BIT_SUM, server 0: the bit is inverted. -/
theorem C67_bit_sum_server0 (n : ℕ) (mx : BitVec 32) :
    ∃ σ : Prg ≃ Prg, Redraw σ ∧ ∀ g : Prg, g.Steady → g.pos + 4 * (n + 1) < 2 ^ 64 →
      (bitSumClient (n + 1) mx (σ g)).1 = (bitSumClient (n + 1) mx g).1 ∧ ∃ r r', FirstRow bitOne n g (σ g) r r' ∧ r'.real = !r.real := by
  obtain ⟨σ, hσ, e⟩ := shift_redraw (fun _ _ _ => 0#64) (fun g p k i => decide ((p, k, i) = (g.pos, 1, 0))) (fun g => rfl) (fun g => rfl)
    fun next pos => ⟨{(pos, 1, 0)}, fun g _ h p k i hi => by rw [h]; simpa using hi⟩
  refine ⟨σ, hσ, fun g hg hc => ?_⟩
  rw [e g]
  have hn := hg g.pos 1
  have hn' := hg (g.next g.pos 1) 1
  generalize hg' : g.shift (fun _ _ => 0#64) (fun p k i => decide ((p, k, i) = (g.pos, 1, 0))) = g'
  have b0 : g'.bit g.pos 1 0 = !g.bit g.pos 1 0 := by rw [← hg']; simp [Prg.shift]
  have b1 : g'.bit (g.next g.pos 1) 1 0 = g.bit (g.next g.pos 1) 1 0 := by
    rw [← hg']
    have : ¬ g.next g.pos 1 = g.pos := by omega
    simp [Prg.shift, this]
  have hp : g'.pos = g.pos ∧ g'.next = g.next := by rw [← hg']; exact ⟨rfl, rfl⟩
  have one' : bitOne g' = ((!g.bit g.pos 1 0, clientBit (!g.bit g.pos 1 0) (g.bit (g.next g.pos 1) 1 0)),
      { g' with pos := g.next (g.next g.pos 1) 1 }) := by
    rw [← b0, ← b1, ← hp.1, ← hp.2]; rfl
  have hf := first_row C59_bit_blocks bit_local (n := n) (g' := g') hg (by
    rw [← hg'] at one' ⊢
    exact shift_later (p := g.next (g.next g.pos 1) 1) rfl (by rw [one']) (by omega) (fun i h hi => rfl) fun q k i hq => by
      have : ¬ q = g.pos := by omega
      simp [this])
  refine ⟨?_, _, _, hf, ?_⟩
  · obtain ⟨rest, h1, h2⟩ := hf
    simp only [bitSumClient, h1, h2, sent0, List.map_cons, one']
    rfl
  · simp only [one']
    rfl

/-- C67 for BIT_SUM, server 1. -/
theorem C67_bit_sum_server1 (n : ℕ) (mx : BitVec 32) :
    ∃ σ : Prg ≃ Prg, Redraw σ ∧ ∀ g : Prg, g.Steady → g.pos + 4 * (n + 1) < 2 ^ 64 →
      (bitSumClient (n + 1) mx (σ g)).2.1 = (bitSumClient (n + 1) mx g).2.1 ∧ ∃ r r', FirstRow bitOne n g (σ g) r r' ∧ r'.real = !r.real := by
  obtain ⟨σ, hσ, e⟩ := shift_redraw (fun _ _ _ => 0#64) (fun g p k i => decide ((p, k, i) = (g.pos, 1, 0) ∨ (p, k, i) = (g.next g.pos 1, 1, 0)))
    (fun g => rfl) (fun g => rfl)
    fun next pos => ⟨{(pos, 1, 0), (next pos 1, 1, 0)}, fun g h' h p k i hi => by rw [h, h']; simpa using hi⟩
  refine ⟨σ, hσ, fun g hg hc => ?_⟩
  rw [e g]
  have hn := hg g.pos 1
  have hn' := hg (g.next g.pos 1) 1
  generalize hg' : g.shift (fun _ _ => 0#64) (fun p k i => decide ((p, k, i) = (g.pos, 1, 0) ∨ (p, k, i) = (g.next g.pos 1, 1, 0))) = g'
  have b0 : g'.bit g.pos 1 0 = !g.bit g.pos 1 0 := by rw [← hg']; simp [Prg.shift]
  have b1 : g'.bit (g.next g.pos 1) 1 0 = !g.bit (g.next g.pos 1) 1 0 := by rw [← hg']; simp [Prg.shift]
  have hp : g'.pos = g.pos ∧ g'.next = g.next := by rw [← hg']; exact ⟨rfl, rfl⟩
  have one' : bitOne g' = ((!g.bit g.pos 1 0, clientBit (!g.bit g.pos 1 0) (!g.bit (g.next g.pos 1) 1 0)),
      { g' with pos := g.next (g.next g.pos 1) 1 }) := by
    rw [← b0, ← b1, ← hp.1, ← hp.2]; rfl
  have hf := first_row C59_bit_blocks bit_local (n := n) (g' := g') hg (by
    rw [← hg'] at one' ⊢
    exact shift_later (p := g.next (g.next g.pos 1) 1) rfl (by rw [one']) (by omega) (fun i h hi => rfl) fun q k i hq => by
      have h1 : ¬ q = g.pos := by omega
      have h2 : ¬ q = g.next g.pos 1 := by omega
      simp [h1, h2])
  refine ⟨?_, _, _, hf, ?_⟩
  · obtain ⟨rest, h1, h2⟩ := hf
    have same : (clientBit (!g.bit g.pos 1 0) (!g.bit (g.next g.pos 1) 1 0)).2 = (bitOne g).1.2.2 := by
      show (!_ ^^ !_) = (g.bit (g.next g.pos 1) 1 0 ^^ g.bit g.pos 1 0)
      simp
    simp only [bitSumClient, h1, h2, sent1, List.map_cons, one', same]
  · simp only [one']
    rfl

/-! ## MAX and MIN -/

theorem xor_cancel_mid (a b c : U64) : a ^^^ (b ^^^ c) ^^^ c = a ^^^ b := by
  rw [BitVec.xor_assoc, BitVec.xor_assoc, BitVec.xor_self, BitVec.xor_zero]

/-- The words of the encodings of the values of two raw words, XORed. -/
def maxDiff (isMax : Bool) (B : ℕ) (w w' : U64) (enc : List U64) (j : ℕ) : U64 :=
  (maxEncode isMax B (w.toNat % (B + 1)) fun j => enc.getD j 0#64).getD j 0#64 ^^^
    (maxEncode isMax B (w'.toNat % (B + 1)) fun j => enc.getD j 0#64).getD j 0#64

/-- C67 for MAX and MIN, server 0. The raw word of the value is XORed with any word, which makes any value of any other. -/
theorem C67_max_server0 (isMax : Bool) (B n : ℕ) (δ : U64) :
    ∃ σ : Prg ≃ Prg, Redraw σ ∧ ∀ g : Prg, g.Steady → g.pos + (B + 3) * (n + 1) < 2 ^ 64 →
      maxBytes (sent0 (uploadLoop (maxOne isMax B) (n + 1) (σ g))) = maxBytes (sent0 (uploadLoop (maxOne isMax B) (n + 1) g)) ∧
      ∃ r r', FirstRow (maxOne isMax B) n g (σ g) r r' ∧ r.real.1 = g.word.1.toNat % (B + 1) ∧ r'.real.1 = (g.word.1 ^^^ δ).toNat % (B + 1) ∧
        r'.real.2 = r.real.2 := by
  obtain ⟨σ, hσ, e⟩ := shift_blocks (fun g => seg g.pos 1 fun _ => δ) fun g => rfl
  refine ⟨σ, hσ, fun g hg hc => ?_⟩
  rw [e g]
  have hcn : (B + 3) * (n + 1) = (B + 3) * n + (B + 3) := Nat.mul_succ _ _
  generalize hg' : g.shift (seg g.pos 1 fun _ => δ) (fun _ _ _ => false) = g'
  have w0 : g'.wordAt g.pos 0 = g.wordAt g.pos 0 ^^^ δ := by
    rw [← hg', wordAt_shift (by omega), seg_hit (j := 0) (by omega)]
  have wl : ∀ p, g.pos < p → p + (B + 1 + 1) / 2 ≤ 2 ^ 64 → (List.range (B + 1)).map (g'.wordAt p) = (List.range (B + 1)).map (g.wordAt p) := by
    intro p hp hl
    refine List.map_congr_left fun j hj => ?_
    have := List.mem_range.1 hj
    rw [← hg', wordAt_shift (by omega), seg_miss (by omega)]
    exact BitVec.xor_zero
  have hp : g'.pos = g.pos := by rw [← hg']; rfl
  have one' : maxOne isMax B g' = ((((g.wordAt g.pos 0 ^^^ δ).toNat % (B + 1), (maxOne isMax B g).1.1.2),
      clientMax isMax B ((g.wordAt g.pos 0 ^^^ δ).toNat % (B + 1)) (fun j => (maxOne isMax B g).1.1.2.getD j 0#64)
        (fun j => ((List.range (B + 1)).map (g.wordAt (g.pos + 1 + (B + 1 + 1) / 2))).getD j 0#64)),
      { g' with pos := g.pos + 1 + (B + 1 + 1) / 2 + (B + 1 + 1) / 2 }) := by
    have a : (maxOne isMax B g).1.1.2 = (List.range (B + 1)).map (g'.wordAt (g.pos + 1)) := (wl (g.pos + 1) (by omega) (by omega)).symm
    rw [a, ← w0, ← wl (g.pos + 1 + (B + 1 + 1) / 2) (by omega) (by omega), ← hp]; rfl
  have hf := first_row (C59_max_blocks isMax B) (max_local isMax B) (n := n) (g' := g') hg (by
    rw [← hg'] at one' ⊢
    exact shift_later (p := g.pos + 1 + (B + 1 + 1) / 2 + (B + 1 + 1) / 2) rfl (by rw [one']) (by omega) (fun i h hi => seg_miss (by omega))
      fun _ _ _ _ => rfl)
  refine ⟨?_, _, _, hf, ?_⟩
  · obtain ⟨rest, h1, h2⟩ := hf
    simp only [h1, h2, sent0, List.map_cons, one']
    rfl
  · simp only [one', and_true]
    exact ⟨rfl, rfl⟩

/-- C67 for MAX and MIN, server 1. -/
theorem C67_max_server1 (isMax : Bool) (B n : ℕ) (δ : U64) :
    ∃ σ : Prg ≃ Prg, Redraw σ ∧ ∀ g : Prg, g.Steady → g.pos + (B + 3) * (n + 1) < 2 ^ 64 →
      maxBytes (sent1 (uploadLoop (maxOne isMax B) (n + 1) (σ g))) = maxBytes (sent1 (uploadLoop (maxOne isMax B) (n + 1) g)) ∧
      ∃ r r', FirstRow (maxOne isMax B) n g (σ g) r r' ∧ r.real.1 = g.word.1.toNat % (B + 1) ∧ r'.real.1 = (g.word.1 ^^^ δ).toNat % (B + 1) ∧
        r'.real.2 = r.real.2 := by
  let encOf : Prg → List U64 := fun g => (List.range (B + 1)).map (g.wordAt (g.pos + 1))
  let D : Prg → ℕ → U64 := fun g j => if g.pos + B + 3 < 2 ^ 64 then
    maxDiff isMax B (g.wordAt g.pos 0) (g.wordAt g.pos 0 ^^^ δ) (encOf g) j else 0#64
  let W : Prg → ℕ → ℕ → U64 := fun g i h => seg g.pos 1 (fun _ => δ) i h ^^^ seg (g.pos + 1 + (B + 1 + 1) / 2) (B + 1) (D g) i h
  have w0 : ∀ g : Prg, g.pos + B + 3 < 2 ^ 64 → (g.shift (W g) fun _ _ _ => false).wordAt g.pos 0 = g.wordAt g.pos 0 ^^^ δ := fun g hc => by
    rw [wordAt_shift (by omega)]
    simp only [W]
    rw [seg_hit (j := 0) (by omega), seg_miss (by omega), BitVec.xor_zero]
  have w1 : ∀ g : Prg, g.pos + B + 3 < 2 ^ 64 → encOf (g.shift (W g) fun _ _ _ => false) = encOf g := fun g hc => by
    refine List.map_congr_left fun j hj => ?_
    have := List.mem_range.1 hj
    show (g.shift (W g) _).wordAt (g.pos + 1) j = _
    rw [wordAt_shift (by omega)]
    simp only [W]
    rw [seg_miss (by omega), seg_miss (by omega), BitVec.xor_zero]
    exact BitVec.xor_zero
  have w2 : ∀ g : Prg, g.pos + B + 3 < 2 ^ 64 → ∀ j < B + 1, (g.shift (W g) fun _ _ _ => false).wordAt (g.pos + 1 + (B + 1 + 1) / 2) j =
      g.wordAt (g.pos + 1 + (B + 1 + 1) / 2) j ^^^ D g j := fun g hc j hj => by
    rw [wordAt_shift (by omega)]
    simp only [W]
    rw [seg_miss (by omega), seg_hit hj, BitVec.zero_xor]
  obtain ⟨σ, hσ, e⟩ := shift_blocks W fun g => by
    have hD : D (g.shift (W g) fun _ _ _ => false) = D g := by
      funext j
      simp only [D]
      show (if g.pos + B + 3 < 2 ^ 64 then _ else _) = _
      split
      · rename_i hc
        rw [w1 g hc]
        show maxDiff isMax B ((g.shift (W g) _).wordAt g.pos 0) ((g.shift (W g) _).wordAt g.pos 0 ^^^ δ) _ j = _
        rw [w0 g hc, BitVec.xor_assoc, BitVec.xor_self, BitVec.xor_zero, maxDiff, maxDiff, BitVec.xor_comm]
      · rfl
    funext i h
    show seg g.pos 1 (fun _ => δ) i h ^^^ seg (g.pos + 1 + (B + 1 + 1) / 2) (B + 1) (D (g.shift (W g) _)) i h = _
    rw [hD]
  refine ⟨σ, hσ, fun g hg hc => ?_⟩
  rw [e g]
  have hcn : (B + 3) * (n + 1) = (B + 3) * n + (B + 3) := Nat.mul_succ _ _
  have hc' : g.pos + B + 3 < 2 ^ 64 := by omega
  replace w0 := w0 g hc'
  replace w1 := w1 g hc'
  replace w2 := w2 g hc'
  have hD : ∀ j, D g j = maxDiff isMax B (g.wordAt g.pos 0) (g.wordAt g.pos 0 ^^^ δ) (encOf g) j := fun j => if_pos hc'
  have hW : ∀ i h, g.pos + 1 + (B + 1 + 1) / 2 + (B + 1 + 1) / 2 ≤ i → W g i h = 0#64 := fun i h hi => by
    simp only [W]
    rw [seg_miss (by omega), seg_miss (by omega), BitVec.xor_zero]
  generalize W g = W0 at *
  generalize hg' : g.shift W0 (fun _ _ _ => false) = g' at *
  have hp : g'.pos = g.pos := by rw [← hg']; rfl
  have one' : maxOne isMax B g' = ((((g.wordAt g.pos 0 ^^^ δ).toNat % (B + 1), encOf g),
      clientMax isMax B ((g.wordAt g.pos 0 ^^^ δ).toNat % (B + 1)) (fun j => (encOf g).getD j 0#64)
        (fun j => ((List.range (B + 1)).map (g'.wordAt (g.pos + 1 + (B + 1 + 1) / 2))).getD j 0#64)),
      { g' with pos := g.pos + 1 + (B + 1 + 1) / 2 + (B + 1 + 1) / 2 }) := by
    rw [← w1, ← w0, ← hp]; rfl
  have hf := first_row (C59_max_blocks isMax B) (max_local isMax B) (n := n) (g' := g') hg (by
    rw [← hg'] at one' ⊢
    exact shift_later (p := g.pos + 1 + (B + 1 + 1) / 2 + (B + 1 + 1) / 2) rfl (by rw [one']) (by omega) hW fun _ _ _ _ => rfl)
  refine ⟨?_, _, _, hf, ?_⟩
  · obtain ⟨rest, h1, h2⟩ := hf
    have same : (clientMax isMax B ((g.wordAt g.pos 0 ^^^ δ).toNat % (B + 1)) (fun j => (encOf g).getD j 0#64)
        (fun j => ((List.range (B + 1)).map (g'.wordAt (g.pos + 1 + (B + 1 + 1) / 2))).getD j 0#64)).2 = (maxOne isMax B g).1.2.2 := by
      show List.zipWith _ ((List.range (B + 1)).map _) (maxEncode isMax B _ _) = List.zipWith _ ((List.range (B + 1)).map
        fun j => ((List.range (B + 1)).map (g.wordAt (g.pos + 1 + (B + 1 + 1) / 2))).getD j 0#64)
        (maxEncode isMax B ((g.wordAt g.pos 0).toNat % (B + 1)) fun j => (encOf g).getD j 0#64)
      refine List.ext_getElem (by simp [maxEncode]) fun j h1 h2 => ?_
      have hj : j < B + 1 := by simp [maxEncode] at h1; omega
      have ge : ∀ w : U64, (maxEncode isMax B (w.toNat % (B + 1)) fun j => (encOf g).getD j 0#64).getD j 0#64 =
          (maxEncode isMax B (w.toNat % (B + 1)) fun j => (encOf g).getD j 0#64)[j]'(by simp [maxEncode]; omega) := fun w => by
        simp [List.getD_eq_getElem?_getD, maxEncode, hj]
      rw [List.getElem_zipWith, List.getElem_zipWith, ← ge, ← ge]
      simp only [List.getElem_map, List.getElem_range, List.getD_eq_getElem?_getD, List.getElem?_map, List.getElem?_range hj, Option.map_some, Option.getD_some]
      rw [w2 j hj, hD j, maxDiff]
      simp only [List.getD_eq_getElem?_getD]
      exact xor_cancel_mid _ _ _
    simp only [h1, h2, sent1, List.map_cons, one', same]
  · simp only [one']
    exact ⟨rfl, rfl, rfl⟩

/-! ## FREQ -/

/-- C67 for FREQ, server 0. -/
theorem C67_freq_server0 {nbits : ℕ} (hb : nbits < 64) (n : ℕ) {δ : U64} (hδ : δ.toNat < 2 ^ nbits) :
    ∃ σ : Prg ≃ Prg, Redraw σ ∧ ∀ g : Prg, g.Steady → g.pos + (2 ^ nbits / 16 + 3) * (n + 1) < 2 ^ 64 →
      (freqClient nbits (n + 1) (σ g)).1 = (freqClient nbits (n + 1) g).1 ∧
      ∃ r r', FirstRow (freqOne nbits) n g (σ g) r r' ∧ r'.real = r.real ^^^ δ := by
  obtain ⟨σ, hσ, e⟩ := shift_blocks (fun g => seg g.pos 1 fun _ => δ) fun g => rfl
  refine ⟨σ, hσ, fun g hg hc => ?_⟩
  rw [e g]
  have hN : (1#64 <<< nbits : U64).toNat = 2 ^ nbits := shl_toNat hb
  rw [← hN] at hc
  generalize hg' : g.shift (seg g.pos 1 fun _ => δ) (fun _ _ _ => false) = g'
  have hcn : ((1#64 <<< nbits : U64).toNat / 16 + 3) * (n + 1) =
    ((1#64 <<< nbits : U64).toNat / 16 + 3) * n + ((1#64 <<< nbits : U64).toNat / 16 + 3) := Nat.mul_succ _ _
  have hn := hg (g.pos + 1) (1#64 <<< nbits : U64).toNat
  have w0 : g'.wordAt g.pos 0 = g.wordAt g.pos 0 ^^^ δ := by
    rw [← hg', wordAt_shift (by omega), seg_hit (j := 0) (by omega)]
  have hp : g'.pos = g.pos ∧ g'.next = g.next ∧ g'.bit = g.bit := by
    rw [← hg']; refine ⟨rfl, rfl, ?_⟩; funext p k i; exact Bool.xor_false _
  have one' : freqOne nbits g' = (((g.wordAt g.pos 0 ^^^ δ) % (1#64 <<< nbits), clientFreq nbits (g.wordAt g.pos 0 ^^^ δ)
      ((List.range (1#64 <<< nbits : U64).toNat).map (g.bit (g.pos + 1) (1#64 <<< nbits : U64).toNat))),
      { g' with pos := g.next (g.pos + 1) (1#64 <<< nbits : U64).toNat }) := by
    rw [← w0, ← hp.1, ← hp.2.1, ← hp.2.2]; rfl
  have hf := first_row (C59_freq_blocks nbits) (freq_local nbits) (n := n) (g' := g') hg (by
    rw [← hg'] at one' ⊢
    exact shift_later (p := g.next (g.pos + 1) (1#64 <<< nbits : U64).toNat) rfl (by rw [one']) (by omega) (fun i h hi => seg_miss (by omega))
      fun _ _ _ _ => rfl)
  refine ⟨?_, _, _, hf, ?_⟩
  · obtain ⟨rest, h1, h2⟩ := hf
    simp only [freqClient, h1, h2, sent0, List.map_cons, one']
    rfl
  · simp only [one']
    exact xor_mod_shl hb _ _ hδ

/-- C67 for FREQ, server 1. -/
theorem C67_freq_server1 {nbits : ℕ} (hb : nbits < 64) (n : ℕ) {δ : U64} (hδ : δ.toNat < 2 ^ nbits) :
    ∃ σ : Prg ≃ Prg, Redraw σ ∧ ∀ g : Prg, g.Steady → g.pos + (2 ^ nbits / 16 + 3) * (n + 1) < 2 ^ 64 →
      (freqClient nbits (n + 1) (σ g)).2.1 = (freqClient nbits (n + 1) g).2.1 ∧
      ∃ r r', FirstRow (freqOne nbits) n g (σ g) r r' ∧ r'.real = r.real ^^^ δ := by
  let N := (1#64 <<< nbits : U64).toNat
  let V : U64 → ℕ := fun w => (w % (1#64 <<< nbits)).toNat
  let W : Prg → ℕ → ℕ → U64 := fun g => seg g.pos 1 fun _ => δ
  let E : Prg → ℕ → ℕ → ℕ → Bool := fun g p k i => decide (g.pos < 2 ^ 64 ∧ p = g.pos + 1 ∧ k = N ∧ i < N) &&
    (decide (i = V (g.wordAt g.pos 0)) ^^ decide (i = V (g.wordAt g.pos 0 ^^^ δ)))
  have w0 : ∀ g : Prg, ∀ E, g.pos < 2 ^ 64 → (g.shift (W g) E).wordAt g.pos 0 = g.wordAt g.pos 0 ^^^ δ := fun g E hc => by
    rw [wordAt_shift (by omega)]
    simp only [W]
    rw [seg_hit (j := 0) (by omega)]
  obtain ⟨σ, hσ, e⟩ := shift_redraw W E (fun g => rfl) (fun g => by
      funext p k i
      show (decide (g.pos < 2 ^ 64 ∧ _) && (decide (i = V ((g.shift (W g) (E g)).wordAt g.pos 0)) ^^
        decide (i = V ((g.shift (W g) (E g)).wordAt g.pos 0 ^^^ δ)))) = _
      by_cases hc : g.pos < 2 ^ 64
      · rw [w0 g _ hc, BitVec.xor_assoc, BitVec.xor_self, BitVec.xor_zero, Bool.xor_comm]
        rfl
      · simp only [E, hc, false_and, decide_false, Bool.false_and])
    fun next pos => ⟨((List.range N).map fun i => (pos + 1, N, i)).toFinset, fun g _ h p k i hi => by
      have : ¬ (g.pos < 2 ^ 64 ∧ p = g.pos + 1 ∧ k = N ∧ i < N) := by
        rintro ⟨-, rfl, rfl, h4⟩
        exact hi (by rw [h]; simpa using h4)
      simp only [E, this, decide_false, Bool.false_and]⟩
  refine ⟨σ, hσ, fun g hg hc => ?_⟩
  rw [e g]
  have hN : N = 2 ^ nbits := shl_toNat hb
  rw [← hN] at hc
  have hcn : (N / 16 + 3) * (n + 1) = (N / 16 + 3) * n + (N / 16 + 3) := Nat.mul_succ _ _
  have hn := hg (g.pos + 1) N
  replace w0 := w0 g (E g) (by omega)
  have hE : ∀ i < N, E g (g.pos + 1) N i = (decide (i = V (g.wordAt g.pos 0)) ^^ decide (i = V (g.wordAt g.pos 0 ^^^ δ))) := fun i hi => by
    have : g.pos < 2 ^ 64 := by omega
    simp only [E, this, hi, and_self, decide_true, Bool.true_and]
  have hE' : ∀ q k i, g.pos + 2 ≤ q → E g q k i = false := fun q k i hq => by
    have : ¬ q = g.pos + 1 := by omega
    simp [E, this]
  have hW : ∀ i h, g.pos + 1 ≤ i → W g i h = 0#64 := fun i h hi => seg_miss (by omega)
  have hb1 : ∀ i, (g.shift (W g) (E g)).bit (g.pos + 1) N i = (g.bit (g.pos + 1) N i ^^ E g (g.pos + 1) N i) := fun i => rfl
  generalize W g = W0 at *
  generalize E g = E0 at *
  generalize hg' : g.shift W0 E0 = g' at *
  have hp : g'.pos = g.pos ∧ g'.next = g.next := by rw [← hg']; exact ⟨rfl, rfl⟩
  have one' : freqOne nbits g' = (((g.wordAt g.pos 0 ^^^ δ) % (1#64 <<< nbits), clientFreq nbits (g.wordAt g.pos 0 ^^^ δ)
      ((List.range N).map (g'.bit (g.pos + 1) N))), { g' with pos := g.next (g.pos + 1) N }) := by
    rw [← w0, ← hp.1, ← hp.2]; rfl
  have hf := first_row (C59_freq_blocks nbits) (freq_local nbits) (n := n) (g' := g') hg (by
    rw [← hg'] at one' ⊢
    refine shift_later (p := g.next (g.pos + 1) N) rfl (by rw [one']) ?_ (fun i h hi => hW i h (by omega)) fun q k i hq => hE' q k i (by omega)
    show _ + (N / 16 + 3) * n < _
    omega)
  refine ⟨?_, _, _, hf, ?_⟩
  · obtain ⟨rest, h1, h2⟩ := hf
    have hV : ∀ w, V w < N := fun w => by
      simp only [V, N, BitVec.toNat_umod]; exact Nat.mod_lt _ (by rw [shl_toNat hb]; positivity)
    have same : (clientFreq nbits (g.wordAt g.pos 0 ^^^ δ) ((List.range N).map (g'.bit (g.pos + 1) N))).2 = (freqOne nbits g).1.2.2 := by
      show ((List.range N).map (g'.bit (g.pos + 1) N)).set (V (g.wordAt g.pos 0 ^^^ δ))
          (!((List.range N).map (g'.bit (g.pos + 1) N)).getD (V (g.wordAt g.pos 0 ^^^ δ)) false) =
        ((List.range N).map (g.bit (g.pos + 1) N)).set (V (g.wordAt g.pos 0)) (!((List.range N).map (g.bit (g.pos + 1) N)).getD (V (g.wordAt g.pos 0)) false)
      have v1 := hV (g.wordAt g.pos 0)
      have v2 := hV (g.wordAt g.pos 0 ^^^ δ)
      generalize V (g.wordAt g.pos 0 ^^^ δ) = b at *
      generalize V (g.wordAt g.pos 0) = a at *
      refine List.ext_getElem (by simp) fun j h1 h2 => ?_
      have hj : j < N := by simpa using h1
      simp only [List.getElem_set, List.getElem_map, List.getElem_range, List.getD_eq_getElem?_getD, List.getElem?_map, List.getElem?_range v1,
        List.getElem?_range v2, Option.map_some, Option.getD_some, hb1, hE j hj, hE b v2]
      have e1 : decide (j = a) = decide (a = j) := by simp only [eq_comm]
      have e2 : decide (j = b) = decide (b = j) := by simp only [eq_comm]
      by_cases ha : a = j
      · by_cases hb : b = j
        · subst ha; subst hb; simp
        · subst ha; simp [hb, e2]
      · by_cases hb : b = j
        · subst hb; simp [ha, e1]
        · simp [ha, hb, e1, e2]
    simp only [freqClient, h1, h2, sent1, List.map_cons, one', same]
  · simp only [one']
    exact xor_mod_shl hb _ _ hδ

/-- Runs of 1000 submissions that meet the hypotheses of this file, and a change of the first value. -/
example : plainPrg.Steady ∧ plainPrg.pos + 2 * (999 + 1) < 2 ^ 64 ∧ (5#64).toNat < 2 ^ 8 ∧ plainPrg.pos + 4 * (999 + 1) < 2 ^ 64 :=
  ⟨plainPrg_steady, by decide, by decide, by decide⟩

end Verif

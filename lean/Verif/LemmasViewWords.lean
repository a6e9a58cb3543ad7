import Verif.PropsViewLin

/-! # Views for masks that are words reduced modulo the field modulus

`intsum_ot_sender` draws a 64-bit word per mask and reduces it modulo `p` (ot.cpp:148-149). The words below `131071 * p` give every residue equally
often. -/

namespace Verif

variable {α β : Type}

/-- The words below the largest multiple of the field modulus. -/
def Fair (w : U64) : Prop := w.toNat < 131071 * intModulus

instance (w : U64) : Decidable (Fair w) := inferInstanceAs (Decidable (_ < _))

/-- Every residue is the residue of exactly 131071 fair words, one in each block of `p` words. -/
theorem fair_residue (w : U64) : Fair w ↔ w.toNat / intModulus < 131071 := by
  rw [Fair, Nat.div_lt_iff_lt_mul (by decide)]

/-- The residue of a word as mask. -/
def residue (w : U64) : Mask := ⟨redMod modW w, by
  rw [redMod, if_neg (by decide), BitVec.toNat_umod, modW_toNat]; exact Nat.mod_lt _ (by decide)⟩

theorem residue_toNat (w : U64) : (residue w).1.toNat = w.toNat % intModulus := by
  show (redMod modW w).toNat = _
  rw [redMod, if_neg (by decide), BitVec.toNat_umod, modW_toNat]

/-- A map of masks acts on the words of each block. -/
def onWord (f : Mask → Mask) (w : U64) : U64 :=
  if Fair w then BitVec.ofNat 64 (intModulus * (w.toNat / intModulus) + (f (residue w)).1.toNat) else w

theorem onWord_toNat (f : Mask → Mask) {w : U64} (h : Fair w) :
    (onWord f w).toNat = intModulus * (w.toNat / intModulus) + (f (residue w)).1.toNat := by
  have h1 := (fair_residue w).1 h
  have h2 := (f (residue w)).2
  rw [onWord, if_pos h, BitVec.toNat_ofNat, Nat.mod_eq_of_lt]
  have : intModulus = 140737597931521 := rfl
  generalize (f (residue w)).1.toNat = a at h2 ⊢
  rw [this] at h1 h2 ⊢
  omega

theorem onWord_div (f : Mask → Mask) {w : U64} (h : Fair w) : (onWord f w).toNat / intModulus = w.toNat / intModulus := by
  rw [onWord_toNat f h, Nat.mul_add_div (by decide), Nat.div_eq_of_lt (f (residue w)).2, Nat.add_zero]

theorem onWord_fair (f : Mask → Mask) (w : U64) : Fair (onWord f w) ↔ Fair w := by
  by_cases h : Fair w
  · rw [fair_residue, onWord_div f h, ← fair_residue]
  · rw [onWord, if_neg h]

theorem residue_onWord (f : Mask → Mask) {w : U64} (h : Fair w) : residue (onWord f w) = f (residue w) := by
  apply Subtype.ext
  apply BitVec.eq_of_toNat_eq
  rw [residue_toNat, onWord_toNat f h, Nat.mul_add_mod, Nat.mod_eq_of_lt (f (residue w)).2]

theorem onWord_comp (f g : Mask → Mask) (h : ∀ b, g (f b) = b) (w : U64) : onWord g (onWord f w) = w := by
  by_cases hw : Fair w
  · apply BitVec.eq_of_toNat_eq
    rw [onWord_toNat g ((onWord_fair f w).2 hw), onWord_div f hw, residue_onWord f hw, h, residue_toNat, Nat.div_add_mod]
  · have : onWord f w = w := by rw [onWord, if_neg hw]
    rw [this, onWord, if_neg hw]

/-- A bijection of masks gives a bijection of words. -/
def wordEquiv (σ : Mask ≃ Mask) : U64 ≃ U64 :=
  ⟨onWord σ, onWord σ.symm, onWord_comp _ _ σ.symm_apply_apply, onWord_comp _ _ σ.apply_symm_apply⟩

/-! ### The programs use the residues only -/

theorem redMod_residue (w : U64) : redMod modW (residue w).1 = redMod modW w := redMask _

theorem senderCol_residue (raw raw' : ℕ → U64) (k rem : ℕ) (num acc : U64) (h : ∀ t, k ≤ t → t < k + rem → redMod modW (raw t) = redMod modW (raw' t)) :
    senderCol modW raw k rem num acc = senderCol modW raw' k rem num acc := by
  induction rem generalizing k num acc with
  | zero => rfl
  | succ rem ih =>
    rw [senderCol, senderCol, h k le_rfl (by omega)]
    simp only [ih (k + 1) _ _ fun t h1 h2 => h t (by omega) (by omega)]

theorem senderCols_residue (raw raw' : ℕ → ℕ → U64) (j : ℕ) (x : List U64) (ws : List ℕ)
    (h : ∀ i k, k < ws.getD i 0 → redMod modW (raw (j + i) k) = redMod modW (raw' (j + i) k)) :
    senderCols modW raw j x ws = senderCols modW raw' j x ws := by
  induction ws generalizing j x with
  | nil => cases x <;> rfl
  | cons w ws ih =>
    cases x with
    | nil => rfl
    | cons a x =>
      rw [senderCols, senderCols, ih (j + 1) x fun i k hk => by have := h (i + 1) k (by simpa using hk); rwa [show j + (i + 1) = j + 1 + i by omega] at this,
        senderCol_residue (raw j) (raw' j) 0 w a 0#64 fun t _ h2 => h 0 t (by simpa using h2)]

theorem shareConvert_residue (raw raw' : ℕ → ℕ → ℕ → U64) (N : ℕ) (ws : List ℕ) (flat : List U64)
    (h : ∀ i j k, i < N → k < ws.getD j 0 → redMod modW (raw i j k) = redMod modW (raw' i j k)) :
    shareConvert intModulus false raw N ws.length ws flat = shareConvert intModulus false raw' N ws.length ws flat := by
  unfold shareConvert
  split
  · rfl
  · rename_i hl
    have hrow : ∀ (q : List U64 × ℕ), q.2 < N → senderRow modW ws ⟨q.1, true, raw q.2⟩ = senderRow modW ws ⟨q.1, true, raw' q.2⟩ := by
      intro q hq
      simp only [senderRow, if_true]
      exact senderCols_residue _ _ _ _ _ fun i k hk => by simpa using h q.2 i k hq hk
    have hlen : ∀ q ∈ (pieces ws.length N flat).zipIdx, q.2 < N := by
      intro q hq
      have := List.snd_lt_of_mem_zipIdx hq
      simpa [pieces_length] using this
    have e1 : ((pieces ws.length N flat).zipIdx.map fun q => (⟨q.1, true, raw q.2⟩ : IntRow)).flatMap (fun r => (senderRow modW ws r).1) =
        ((pieces ws.length N flat).zipIdx.map fun q => (⟨q.1, true, raw' q.2⟩ : IntRow)).flatMap (fun r => (senderRow modW ws r).1) := by
      rw [List.flatMap_map, List.flatMap_map]
      exact List.flatMap_congr fun q hq => by rw [hrow q (hlen q hq)]
    have e2 : ((pieces ws.length N flat).zipIdx.map fun q => (⟨q.1, true, raw q.2⟩ : IntRow)).map (fun r => (senderRow modW ws r).2) =
        ((pieces ws.length N flat).zipIdx.map fun q => (⟨q.1, true, raw' q.2⟩ : IntRow)).map (fun r => (senderRow modW ws r).2) := by
      rw [List.map_map, List.map_map]
      exact List.map_congr_left fun q hq => by simp only [Function.comp_apply]; rw [hrow q (hlen q hq)]
    have hm : (BitVec.ofNat 64 intModulus : U64) = modW := rfl
    simp only [Bool.false_eq_true, if_false, intsumSender, hm]
    rw [e1, e2]
    simp only [List.all_map, Function.comp_def]

/-- Server 0's part of VAR and LINREG after the keys are announced uses only the residues of the masks of announced keys. -/
theorem snipOp0_residue (c : Circuit) (coef : ℕ → ℤ) (ws : List ℕ) (raw raw' : ℕ → ℕ → ℕ → U64) (junk : ℕ → List U64) (st : SnipState)
    (m : Map SnipRow) (N : ℕ) (h : ∀ i j k, i < N → k < ws.getD j 0 → redMod modW (raw i j k) = redMod modW (raw' i j k)) :
    ∃ F F' : List Bytes → Proc (List ℤ × ℕ × SnipState), snipOp0 c coef ws raw junk st m = listen.bind F ∧
      snipOp0 c coef ws raw' junk st m = listen.bind F' ∧ ∀ ks, ks.length ≤ N → F ks = F' ks := by
  refine ⟨_, _, rfl, rfl, fun ks hk => ?_⟩
  dsimp only
  rw [shareConvert_residue raw raw' ks.length ws _ fun i j k hi hj => h i j k (by omega) hj]

/-- If two programs of server 0 begin alike and go on alike after what server 1 sends, server 1 sees the same. -/
theorem Sees1.swapTail {α' β' : Type} {A : Proc α} {B : Proc β} {a : α} {b : β} {x y : List Seen} (hAB : PairW A B a b x y) {F F' : α → Proc α'}
    {G : β → Proc β'} (hF : F a = F' a) {v : List Seen} (h : Sees1 (A.bind F) (B.bind G) v) : Sees1 (A.bind F') (B.bind G) v := by
  obtain ⟨r, s, w, h⟩ := h
  have key : ∀ F : α → Proc α', Steps ⟨(A.bind F).watch, (B.bind G).watch, [], []⟩
      ⟨(F a).watch.bind fun s => .ret (s.1, x ++ s.2), (G b).watch.bind fun s => .ret (s.1, y ++ s.2), [], []⟩ := by
    intro F
    rw [Proc.watch_bind, Proc.watch_bind]
    exact hAB _ _ _ _
  have h2 := (h.1 _ (key F)).1
  have h3 := (key F').trans (by rw [← hF]; exact h2)
  obtain ⟨n, hn⟩ := h3
  refine ⟨r, s, w, fun u ⟨m, hu⟩ => ?_, C52_no_infinite_schedule ⟨n, hn⟩ (stuck_done _ _ [] [])⟩
  obtain ⟨_, h1, h2⟩ := C52_schedule_independent hn (stuck_done _ _ [] []) hu
  exact ⟨⟨_, h1⟩, h2⟩

/-- Replacing the masks of server 0 by others with the same residues does not change what server 1 sees. -/
theorem snip_swap (c : Circuit) (coef : ℕ → ℤ) (ws : List ℕ) (raw raw' raw1 : ℕ → ℕ → ℕ → U64) (junk : ℕ → List U64) (st0 st1 : SnipState)
    (m0 m1 o : Map SnipRow) {N : ℕ} (ho : o.length ≤ N) (hN : N < 2 ^ 32) (hk : ∀ k ∈ o.keys, k.length = pkLength)
    (h : ∀ i j k, i < N → k < ws.getD j 0 → redMod modW (raw i j k) = redMod modW (raw' i j k))
    {T0 : List ℤ × ℕ × SnipState → Proc α} {T1 : List ℤ × SnipState → Proc β} {v : List Seen}
    (hv : Sees1 ((snipOp0 c coef ws raw junk st0 m0).bind T0) ((snipOp1 c coef ws raw1 st1 m1 o).bind T1) v) :
    Sees1 ((snipOp0 c coef ws raw' junk st0 m0).bind T0) ((snipOp1 c coef ws raw1 st1 m1 o).bind T1) v := by
  obtain ⟨F, F', e, e', hF⟩ := snipOp0_residue c coef ws raw raw' junk st0 m0 N h
  have hl : o.keys.length = o.length := by simp [Map.keys]
  have hL := listen_pairW o.keys hk (by rw [hl]; omega)
  rw [e] at hv
  rw [e']
  unfold snipOp1 at hv ⊢
  rw [Proc.bind_assoc, Proc.bind_assoc] at hv ⊢
  refine Sees1.swapTail hL ?_ hv
  rw [hF o.keys (by rw [hl]; exact ho)]

end Verif

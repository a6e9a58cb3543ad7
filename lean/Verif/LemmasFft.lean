import Verif.ModelFft
import Verif.LemmasFmpz
import Mathlib.Algebra.BigOperators.Intervals
import Mathlib.Algebra.BigOperators.Ring.Finset
import Mathlib.Tactic.Ring
import Mathlib.Tactic.LinearCombination

/-! The arrays of poly/fft.c compute a recursively defined transform, which is the discrete Fourier transform. -/

namespace Verif

/-- The transform without arrays, of size `2^k`. -/
def fftF (p : ℕ) : ℕ → (ℕ → ℤ) → (ℕ → ℤ) → ℕ → ℤ
  | 0, _, ys, _ => ys 0
  | k + 1, roots, ys, j =>
    if j % 2 = 0 then fftF p k (fun i => roots (2 * i)) (fun i => fmod (ys i + ys (i + 2 ^ k)) p) (j / 2)
    else fftF p k (fun i => roots (2 * i)) (fun i => fmod (fmod (ys i - ys (i + 2 ^ k)) p * roots i) p) (j / 2)

theorem fftF_congr (p : ℕ) : ∀ (k : ℕ) {r r' y y' : ℕ → ℤ} (j : ℕ), (∀ i < 2 ^ k, r i = r' i) → (∀ i < 2 ^ k, y i = y' i) →
    fftF p k r y j = fftF p k r' y' j := by
  intro k
  induction k with
  | zero => intro r r' y y' j _ hy; exact hy 0 (by norm_num)
  | succ k ih =>
    intro r r' y y' j hr hy
    have h2 : 2 ^ (k + 1) = 2 ^ k + 2 ^ k := by rw [pow_succ]; ring
    simp only [fftF]
    split
    · apply ih
      · intro i hi; exact hr _ (by omega)
      · intro i hi; rw [hy i (by omega), hy _ (by omega)]
    · apply ih
      · intro i hi; exact hr _ (by omega)
      · intro i hi; rw [hy i (by omega), hy _ (by omega), hr i (by omega)]

/-! ### Arrays -/

theorem floop_inv {body : ℕ → FMem → Option FMem} {m : FMem} (F : ℕ → FMem) : ∀ n, F 0 = m →
    (∀ i < n, body i (F i) = some (F (i + 1))) → floop body n m = some (F n)
  | 0, h, _ => by rw [floop, h]
  | n + 1, h, hs => by
    rw [floop, floop_inv F n h fun i hi => hs i (by omega), Option.bind_some, hs n (by omega)]

/-- The pointer arguments of a call: scratch arrays at the common offset `o`; the other three pointers are the caller's
arrays or point into the scratch arrays in front of `o`. -/
structure FArgs (sz : FBuf → ℕ) (n o : ℕ) (out roots ys : FPtr) : Prop where
  tmp : o + (n - 1) ≤ sz .tmp
  ySub : o + (n - 1) ≤ sz .ySub
  rootsSub : o + (n - 1) ≤ sz .rootsSub
  outB : out.2 + n ≤ sz out.1
  rootsB : roots.2 + n ≤ sz roots.1
  ysB : ys.2 + n ≤ sz ys.1
  out : out.1 = .out ∨ out.1 = .tmp ∧ out.2 + n ≤ o
  roots : roots.1 = .roots ∨ roots.1 = .rootsSub ∧ roots.2 + n ≤ o
  ys : ys.1 = .ys ∨ ys.1 = .ySub ∧ ys.2 + n ≤ o

/-- Memory after the first loop has run `t` times. -/
def memAdd (p : ℕ) (h o : ℕ) (Y R : ℕ → ℤ) (m : FMem) (t : ℕ) : FMem := fun b i =>
  if b = .ySub ∧ o ≤ i ∧ i < o + t then fmod (Y (i - o) + Y (i - o + h)) p
  else if b = .rootsSub ∧ o ≤ i ∧ i < o + t then R (2 * (i - o)) else m b i

def memSub (p : ℕ) (h o : ℕ) (Y R : ℕ → ℤ) (m : FMem) (t : ℕ) : FMem := fun b i =>
  if b = .ySub ∧ o ≤ i ∧ i < o + t then fmod (fmod (Y (i - o) - Y (i - o + h)) p * R (i - o)) p else m b i

def memCopy (c : ℕ) (out : FPtr) (T : ℕ → ℤ) (m : FMem) (t : ℕ) : FMem := fun b i =>
  if b = out.1 ∧ out.2 ≤ i ∧ (i - out.2) % 2 = c ∧ (i - out.2) / 2 < t then T ((i - out.2) / 2) else m b i

theorem splitAdd_loop {p : ℕ} {sz : FBuf → ℕ} {n h o : ℕ} {out roots ys : FPtr} (A : FArgs sz n o out roots ys)
    (hn : n = h + h) (h1 : 1 ≤ h) (m : FMem) :
    floop (fftSplitAdd p sz h roots ys (.ySub, o) (.rootsSub, o)) h m =
      some (memAdd p h o (fun i => m ys.1 (ys.2 + i)) (fun i => m roots.1 (roots.2 + i)) m h) := by
  refine floop_inv (memAdd p h o (fun i => m ys.1 (ys.2 + i)) (fun i => m roots.1 (roots.2 + i)) m) h ?_ ?_
  · funext b i; simp only [memAdd]; split_ifs <;> first | rfl | omega
  · intro t ht
    have hy : ∀ i < n, ∀ s, memAdd p h o (fun i => m ys.1 (ys.2 + i)) (fun i => m roots.1 (roots.2 + i)) m s ys.1 (ys.2 + i)
        = m ys.1 (ys.2 + i) := by
      intro i hi s
      simp only [memAdd]
      rcases A.ys with e | ⟨e, e'⟩
      · simp [e]
      · rw [if_neg (by omega), if_neg (by simp [e])]
    have := A.ysB; have := A.rootsB; have := A.ySub; have := A.rootsSub
    simp only [fftSplitAdd, frd, fwr]
    rw [if_pos (by omega), if_pos (by omega), Option.bind_some, Option.bind_some, hy t (by omega), hy (t + h) (by omega),
      if_pos (by omega), Option.bind_some, if_pos (by omega), Option.bind_some, if_pos (by omega)]
    have hr : ¬ (roots.1 = FBuf.ySub ∧ roots.2 + 2 * t = o + t) := by
      rcases A.roots with e | ⟨e, _⟩ <;> simp [e]
    have hr2 : memAdd p h o (fun i => m ys.1 (ys.2 + i)) (fun i => m roots.1 (roots.2 + i)) m t roots.1 (roots.2 + 2 * t)
        = m roots.1 (roots.2 + 2 * t) := by
      simp only [memAdd]
      rcases A.roots with e | ⟨e, e'⟩
      · simp [e]
      · rw [if_neg (by simp [e]), if_neg (by omega)]
    congr 1
    funext b i
    beta_reduce
    rw [if_neg hr, hr2]
    simp only [memAdd]
    by_cases hb : b = .rootsSub
    · subst hb
      simp only [true_and, reduceCtorEq, false_and, if_false]
      by_cases hi : i = o + t
      · subst hi; rw [if_pos rfl, if_pos (by omega), show o + t - o = t by omega]
      · rw [if_neg hi]
        by_cases h2 : o ≤ i ∧ i < o + t
        · rw [if_pos h2, if_pos (by omega)]
        · rw [if_neg h2, if_neg (by omega)]
    · simp only [hb, false_and, if_false]
      by_cases hb' : b = .ySub
      · subst hb'
        simp only [true_and]
        by_cases hi : i = o + t
        · subst hi; rw [if_pos rfl, if_pos (by omega), show o + t - o = t by omega]
        · rw [if_neg hi]
          by_cases h2 : o ≤ i ∧ i < o + t
          · rw [if_pos h2, if_pos (by omega)]
          · rw [if_neg h2, if_neg (by omega)]
      · simp [hb']

theorem splitSub_loop {p : ℕ} {sz : FBuf → ℕ} {n h o : ℕ} {out roots ys : FPtr} (A : FArgs sz n o out roots ys)
    (hn : n = h + h) (h1 : 1 ≤ h) (m : FMem) :
    floop (fftSplitSub p sz h roots ys (.ySub, o)) h m =
      some (memSub p h o (fun i => m ys.1 (ys.2 + i)) (fun i => m roots.1 (roots.2 + i)) m h) := by
  refine floop_inv (memSub p h o (fun i => m ys.1 (ys.2 + i)) (fun i => m roots.1 (roots.2 + i)) m) h ?_ ?_
  · funext b i; simp only [memSub]; split_ifs <;> first | rfl | omega
  · intro t ht
    have hy : ∀ i < n, memSub p h o (fun i => m ys.1 (ys.2 + i)) (fun i => m roots.1 (roots.2 + i)) m t ys.1 (ys.2 + i)
        = m ys.1 (ys.2 + i) := by
      intro i hi
      simp only [memSub]
      rcases A.ys with e | ⟨e, e'⟩
      · simp [e]
      · rw [if_neg (by omega)]
    have hr2 : memSub p h o (fun i => m ys.1 (ys.2 + i)) (fun i => m roots.1 (roots.2 + i)) m t roots.1 (roots.2 + t)
        = m roots.1 (roots.2 + t) := by
      simp only [memSub]
      rcases A.roots with e | ⟨e, e'⟩ <;> simp [e]
    have := A.ysB; have := A.rootsB; have := A.ySub
    simp only [fftSplitSub, frd, fwr]
    rw [if_pos (by omega), if_pos (by omega), Option.bind_some, Option.bind_some, hy t (by omega), hy (t + h) (by omega),
      if_pos (by omega), Option.bind_some, if_pos (by omega), hr2]
    congr 1
    funext b i
    simp only [memSub]
    by_cases hb' : b = .ySub
    · subst hb'
      simp only [true_and]
      by_cases hi : i = o + t
      · subst hi; rw [if_pos rfl, if_pos (by omega), show o + t - o = t by omega]
      · rw [if_neg hi]
        by_cases h2 : o ≤ i ∧ i < o + t
        · rw [if_pos h2, if_pos (by omega)]
        · rw [if_neg h2, if_neg (by omega)]
    · simp [hb']

theorem copy_loop {sz : FBuf → ℕ} {n h o c : ℕ} {out roots ys : FPtr} (A : FArgs sz n o out roots ys)
    (hn : n = h + h) (h1 : 1 ≤ h) (hc : c < 2) (m : FMem) :
    floop (fftCopy sz c out (.tmp, o)) h m = some (memCopy c out (fun i => m .tmp (o + i)) m h) := by
  refine floop_inv (memCopy c out (fun i => m .tmp (o + i)) m) h ?_ ?_
  · funext b i; simp only [memCopy]; split_ifs <;> first | rfl | omega
  · intro t ht
    have ht2 : memCopy c out (fun i => m .tmp (o + i)) m t .tmp (o + t) = m .tmp (o + t) := by
      simp only [memCopy]
      rcases A.out with e | ⟨e, e'⟩
      · simp [e]
      · rw [if_neg (by omega)]
    have := A.outB; have := A.tmp
    simp only [fftCopy, frd, fwr]
    rw [if_pos (by omega), Option.bind_some, if_pos (by omega), ht2]
    congr 1
    funext b i
    simp only [memCopy]
    by_cases hb : b = out.1
    · subst hb
      simp only [true_and]
      by_cases hi : i = out.2 + (2 * t + c)
      · subst hi; rw [if_pos rfl, if_pos (by omega), show (out.2 + (2 * t + c) - out.2) / 2 = t by omega]
      · rw [if_neg hi]
        by_cases h2 : out.2 ≤ i ∧ (i - out.2) % 2 = c ∧ (i - out.2) / 2 < t
        · rw [if_pos h2, if_pos (by omega)]
        · rw [if_neg h2, if_neg (by omega)]
    · simp [hb]

/-- `fft_recurse` on `2^k` points: no access out of bounds, the transform of what `roots` and `ys` point to is written to
`out`, and nothing else changes except the scratch arrays from the offset on. -/
theorem fftRecurse_spec {p : ℕ} {sz : FBuf → ℕ} : ∀ (k o : ℕ) (out roots ys : FPtr) (m : FMem), FArgs sz (2 ^ k) o out roots ys →
    ∃ m', fftRecurse p sz (2 ^ k) out roots ys (.tmp, o) (.ySub, o) (.rootsSub, o) m = some m' ∧
      (∀ j < 2 ^ k, m' out.1 (out.2 + j) = fftF p k (fun i => m roots.1 (roots.2 + i)) (fun i => m ys.1 (ys.2 + i)) j) ∧
      (∀ b i, ¬ (b = out.1 ∧ out.2 ≤ i ∧ i < out.2 + 2 ^ k) → ¬ ((b = .tmp ∨ b = .ySub ∨ b = .rootsSub) ∧ o ≤ i) →
        m' b i = m b i) := by
  intro k
  induction k with
  | zero =>
    intro o out roots ys m A
    have := A.ysB; have := A.outB
    rw [pow_zero, fftRecurse, if_pos rfl]
    simp only [frd, fwr]
    rw [if_pos (by omega), Option.bind_some, if_pos (by omega)]
    refine ⟨_, rfl, ?_, ?_⟩
    · intro j hj
      obtain rfl : j = 0 := by omega
      simp [fftF]
    · intro b i h1 _
      show (if b = out.1 ∧ i = out.2 + 0 then m ys.1 (ys.2 + 0) else m b i) = m b i
      rw [if_neg (by rintro ⟨rfl, rfl⟩; apply h1; exact ⟨rfl, by omega, by omega⟩)]
  | succ k ih =>
    intro o out roots ys m A
    set h := 2 ^ k with hh
    have hpos : 1 ≤ h := Nat.one_le_two_pow
    have hn : 2 ^ (k + 1) = h + h := by rw [pow_succ, hh]; ring
    rw [hn] at A ⊢
    have hdiv : (h + h) / 2 = h := by omega
    rw [fftRecurse, if_neg (by omega), dif_neg (by omega)]
    simp only [hdiv, FPtr.plus]
    have A' : FArgs sz h (o + h) (.tmp, o) (.rootsSub, o) (.ySub, o) := by
      have := A.tmp; have := A.ySub; have := A.rootsSub
      exact ⟨by omega, by omega, by omega, by show o + h ≤ sz .tmp; omega, by show o + h ≤ sz .rootsSub; omega,
        by show o + h ≤ sz .ySub; omega,
        Or.inr ⟨rfl, le_rfl⟩, Or.inr ⟨rfl, le_rfl⟩, Or.inr ⟨rfl, le_rfl⟩⟩
    set Y := fun i => m ys.1 (ys.2 + i) with hY
    set R := fun i => m roots.1 (roots.2 + i) with hR
    -- first half
    rw [splitAdd_loop A rfl hpos, Option.bind_some]
    obtain ⟨m2, e2, o2, f2⟩ := ih (o + h) (.tmp, o) (.rootsSub, o) (.ySub, o) (memAdd p h o Y R m h) A'
    rw [e2, Option.bind_some, copy_loop A rfl hpos (by omega), Option.bind_some]
    have R1 : ∀ i < h, memAdd p h o Y R m h .rootsSub (o + i) = R (2 * i) := by
      intro i hi
      simp only [memAdd, reduceCtorEq, false_and, if_false, true_and]
      rw [if_pos (by omega), show o + i - o = i by omega]
    have Y1 : ∀ i < h, memAdd p h o Y R m h .ySub (o + i) = fmod (Y i + Y (i + h)) p := by
      intro i hi
      simp only [memAdd, true_and]
      rw [if_pos (by omega), show o + i - o = i by omega]
    have T2 : ∀ i < h, m2 .tmp (o + i) = fftF p k (fun i => R (2 * i)) (fun i => fmod (Y i + Y (i + h)) p) i := by
      intro i hi
      rw [o2 i hi]
      exact fftF_congr p k i R1 Y1
    -- what is outside of the scratch area is still there
    have out2 : ∀ b i, ¬ ((b = .tmp ∨ b = .ySub ∨ b = .rootsSub) ∧ o ≤ i) → m2 b i = m b i := by
      intro b i hb
      rw [f2 b i (by rintro ⟨rfl, h1, _⟩; exact hb ⟨Or.inl rfl, h1⟩) (fun hc => hb ⟨hc.1, by omega⟩)]
      simp only [memAdd]
      rw [if_neg (fun hc => hb ⟨Or.inr (Or.inl hc.1), hc.2.1⟩), if_neg (fun hc => hb ⟨Or.inr (Or.inr hc.1), hc.2.1⟩)]
    set m3 := memCopy 0 out (fun i => m2 .tmp (o + i)) m2 h with hm3
    have out3 : ∀ b i, ¬ (b = out.1 ∧ out.2 ≤ i ∧ i < out.2 + (h + h)) → m3 b i = m2 b i := by
      intro b i hb
      simp only [hm3, memCopy]
      rw [if_neg (by rintro ⟨h1, h2, _, h4⟩; exact hb ⟨h1, h2, by omega⟩)]
    have hys : ∀ i < h + h, m3 ys.1 (ys.2 + i) = Y i := by
      intro i hi
      rw [out3, out2]
      · rcases A.ys with e | ⟨e, e'⟩ <;> simp [e]; omega
      · rcases A.ys with e | ⟨e, e'⟩ <;> rcases A.out with e2 | ⟨e2, _⟩ <;> simp [e, e2]
    have hro : ∀ i < h + h, m3 roots.1 (roots.2 + i) = R i := by
      intro i hi
      rw [out3, out2]
      · rcases A.roots with e | ⟨e, e'⟩ <;> simp [e]; omega
      · rcases A.roots with e | ⟨e, e'⟩ <;> rcases A.out with e2 | ⟨e2, _⟩ <;> simp [e, e2]
    -- second half
    rw [splitSub_loop A rfl hpos, Option.bind_some]
    set m4 := memSub p h o (fun i => m3 ys.1 (ys.2 + i)) (fun i => m3 roots.1 (roots.2 + i)) m3 h with hm4
    obtain ⟨m5, e5, o5, f5⟩ := ih (o + h) (.tmp, o) (.rootsSub, o) (.ySub, o) m4 A'
    rw [e5, Option.bind_some, copy_loop A rfl hpos (by omega)]
    have R4 : ∀ i < h, m4 .rootsSub (o + i) = R (2 * i) := by
      intro i hi
      simp only [hm4, memSub, reduceCtorEq, false_and, if_false]
      rw [out3 _ _ (by rcases A.out with e2 | ⟨e2, _⟩ <;> simp [e2]), f2 _ _ (by simp) (by simp; omega), R1 i hi]
    have Y4 : ∀ i < h, m4 .ySub (o + i) = fmod (fmod (Y i - Y (i + h)) p * R i) p := by
      intro i hi
      simp only [hm4, memSub, true_and]
      rw [if_pos (by omega), show o + i - o = i by omega, hys i (by omega), hys _ (by omega), hro i (by omega)]
    have T5 : ∀ i < h, m5 .tmp (o + i) =
        fftF p k (fun i => R (2 * i)) (fun i => fmod (fmod (Y i - Y (i + h)) p * R i) p) i := by
      intro i hi
      rw [o5 i hi]
      exact fftF_congr p k i R4 Y4
    -- `out` keeps its even entries
    have hout5 : ∀ j < h + h, m5 out.1 (out.2 + j) = m3 out.1 (out.2 + j) := by
      intro j hj
      rw [f5]
      · simp only [hm4, memSub]
        rw [if_neg]; rcases A.out with e | ⟨e, _⟩ <;> simp [e]
      · rcases A.out with e | ⟨e, _⟩ <;> simp [e]; omega
      · rcases A.out with e | ⟨e, _⟩ <;> simp [e]; omega
    refine ⟨_, rfl, ?_, ?_⟩
    · intro j hj
      simp only [memCopy, true_and, fftF]
      have hj2 : out.2 + j - out.2 = j := by omega
      rw [hj2]
      by_cases hpar : j % 2 = 1
      · rw [if_pos ⟨by omega, hpar, by omega⟩, if_neg (by omega), T5 _ (by omega)]
      · rw [if_neg (by omega), if_pos (by omega), hout5 j hj, hm3]
        simp only [memCopy, true_and]
        rw [hj2, if_pos ⟨by omega, by omega, by omega⟩, T2 _ (by omega)]
    · intro b i h1 h2
      simp only [memCopy]
      rw [if_neg (by rintro ⟨a1, a2, _, a4⟩; exact h1 ⟨a1, a2, by omega⟩)]
      rw [f5 b i (by rintro ⟨rfl, a1, _⟩; exact h2 ⟨Or.inl rfl, a1⟩) (fun hc => h2 ⟨hc.1, by omega⟩)]
      simp only [hm4, memSub]
      rw [if_neg (by rintro ⟨rfl, a1, _⟩; exact h2 ⟨Or.inr (Or.inl rfl), a1⟩), out3 b i h1, out2 b i h2]

/-- `fft_interpolate` in terms of the transform. -/
theorem fftInterpolate_eq {p k : ℕ} {roots ys : List ℤ} (hr : 2 ^ k ≤ roots.length) (hy : 2 ^ k ≤ ys.length) (inv : Bool) :
    fftInterpolate p (2 ^ k) roots ys inv =
      if inv then (invmod ((2 ^ k : ℕ) : ℤ) p).map fun ni =>
        ((List.range (2 ^ k)).map (fftF p k (fun i => roots.getD i 0) fun i => ys.getD i 0)).map fun x => fmod (x * ni) p
      else some ((List.range (2 ^ k)).map (fftF p k (fun i => roots.getD i 0) fun i => ys.getD i 0)) := by
  set sz : FBuf → ℕ := fun b => match b with | .roots => roots.length | .ys => ys.length | _ => 2 ^ k with hsz
  set m : FMem := fun b i => match b with | .roots => roots.getD i 0 | .ys => ys.getD i 0 | _ => 0 with hm
  have A : FArgs sz (2 ^ k) 0 (.out, 0) (.roots, 0) (.ys, 0) :=
    ⟨by simp [hsz], by simp [hsz], by simp [hsz], by simp [hsz], by simpa [hsz] using hr, by simpa [hsz] using hy,
      Or.inl rfl, Or.inl rfl, Or.inl rfl⟩
  obtain ⟨m', e, ho, -⟩ := fftRecurse_spec (p := p) k 0 (.out, 0) (.roots, 0) (.ys, 0) m A
  have hmap : (List.range (2 ^ k)).map (m' .out) =
      (List.range (2 ^ k)).map (fftF p k (fun i => roots.getD i 0) fun i => ys.getD i 0) := by
    apply List.map_congr_left
    intro j hj
    have := ho j (List.mem_range.mp hj)
    simpa [hm] using this
  show ((fftRecurse p sz (2 ^ k) (.out, 0) (.roots, 0) (.ys, 0) (.tmp, 0) (.ySub, 0) (.rootsSub, 0) m).bind fun m =>
    let out := (List.range (2 ^ k)).map (m .out)
    if inv then (invmod ((2 ^ k : ℕ) : ℤ) p).map fun ni => out.map fun x => fmod (x * ni) p else some out) = _
  rw [e, Option.bind_some]
  simp only [hmap]

/-! ### The transform -/

theorem fftF_sum {p : ℕ} : ∀ (k : ℕ) (w : ZMod p) (roots ys : ℕ → ℤ) (j : ℕ), (∀ k', k = k' + 1 → w ^ 2 ^ k' = -1) →
    (∀ i < 2 ^ k, (roots i : ZMod p) = w ^ i) → j < 2 ^ k →
    ((fftF p k roots ys j : ℤ) : ZMod p) = ∑ i ∈ Finset.range (2 ^ k), (ys i : ZMod p) * w ^ (i * j) := by
  intro k
  induction k with
  | zero =>
    intro w roots ys j _ _ hj
    obtain rfl : j = 0 := by simpa using hj
    simp [fftF]
  | succ k ih =>
    intro w roots ys j hw hr hj
    set h := 2 ^ k with hh
    have hn : 2 ^ (k + 1) = h + h := by rw [pow_succ, hh]; ring
    have hw1 : w ^ h = -1 := hw k rfl
    rw [hn] at hj hr
    have hw2 : ∀ k', k = k' + 1 → (w ^ 2) ^ 2 ^ k' = -1 := by
      intro k' e
      rw [← pow_mul, ← hw1, hh, e]; congr 1; rw [pow_succ]; ring
    have hr2 : ∀ i < 2 ^ k, ((roots (2 * i) : ℤ) : ZMod p) = (w ^ 2) ^ i := by
      intro i hi; rw [hr _ (by omega), pow_mul]
    rw [hn, Finset.sum_range_add, fftF]
    rw [← Finset.sum_add_distrib]
    split
    · rename_i hp
      obtain ⟨t, rfl⟩ : ∃ t, j = 2 * t := ⟨j / 2, by omega⟩
      rw [show 2 * t / 2 = t by omega, ih _ _ _ _ hw2 hr2 (by omega)]
      apply Finset.sum_congr rfl
      intro i _
      have e1 : w ^ ((h + i) * (2 * t)) = (w ^ h) ^ (2 * t) * w ^ (i * (2 * t)) := by rw [← pow_mul, ← pow_add]; congr 1; ring
      rw [e1, hw1, pow_mul (-1), neg_one_sq, one_pow]
      push_cast [fmod_cast]
      rw [← pow_mul, show 2 * (i * t) = i * (2 * t) by ring, ← hh, add_comm i h]; ring
    · rename_i hp
      obtain ⟨t, rfl⟩ : ∃ t, j = 2 * t + 1 := ⟨j / 2, by omega⟩
      rw [show (2 * t + 1) / 2 = t by omega, ih _ _ _ _ hw2 hr2 (by omega)]
      apply Finset.sum_congr rfl
      intro i hi
      have hi' : i < h := Finset.mem_range.mp hi
      have e1 : w ^ ((h + i) * (2 * t + 1)) = (w ^ h) ^ (2 * t + 1) * w ^ (i * (2 * t + 1)) := by
        rw [← pow_mul, ← pow_add]; congr 1; ring
      have e2 : w ^ (i * (2 * t + 1)) = (w ^ 2) ^ (i * t) * w ^ i := by rw [← pow_mul, ← pow_add]; congr 1; ring
      rw [e1, e2, hw1, pow_succ (-1), pow_mul (-1), neg_one_sq, one_pow]
      push_cast [fmod_cast]
      rw [← hh, hr i (by omega), add_comm i h]; ring

end Verif

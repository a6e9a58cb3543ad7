import Verif.LemmasMemClient
import Verif.PropsMem

/-!
# C85: the client program gives back the memory it used

Every block is released once, in the way it was allocated, and none is used after that; at the end only the tables of roots are in use. Their size, and the stack that is needed, do not depend on the number
of submissions, but they grow with the degree: from degree 512 on the usual stack is too small.
-/

namespace Verif

/-- The stack `fft_interpolate` needs for its automatic arrays, in bytes. -/
def ClientJob.stackNeed : ClientJob → ℕ
  | .var => 96
  | .lin degree => 48 * npow2 (linMuls degree)
  | _ => 0

/-- The bytes in use at the end of the program. -/
def ClientJob.kept (n : ℕ) : ClientJob → ℕ
  | .var => if n = 0 then 0 else 64
  | .lin degree => if n = 0 then 0 else 32 * npow2 (linMuls degree)
  | _ => 0

theorem npow2_one : npow2 1 = 2 := by decide

theorem kept_bytes {t : Roots} {n N : ℕ} (h1 : n = 0 → t = none) (h2 : n ≠ 0 → ∃ s, t = some s) (h3 : t.For N) :
    (t.owned.map Block.bytes).sum = if n = 0 then 0 else 32 * N := by
  rcases Nat.eq_zero_or_pos n with h | h
  · rw [h1 h, if_pos h]
    rfl
  · obtain ⟨s, rfl⟩ := h2 (by omega)
    rw [if_neg (by omega)]
    exact h3.2

/-- The client program, for every operation, width and number of submissions, in every heap whose stack is large enough: it ends without undefined behaviour, what was in use before is
in use after, and besides only the tables of roots. -/
theorem C85_client (j : ClientJob) (b n : ℕ) (h : Heap) (hok : h.Ok) (hS : j.stackNeed ≤ h.stack) :
    ∃ t h', clientMem j b n h = some (t, h') ∧ h'.Ok ∧ h'.used = t.owned + h.used ∧ (t.owned.map Block.bytes).sum = j.kept n := by
  have plain : ∀ m : Mem Unit, Clean m → ∃ t h', (do m; pure none : Mem Roots) h = some (t, h') ∧ h'.Ok ∧ h'.used = t.owned + h.used ∧
      (t.owned.map Block.bytes).sum = 0 := by
    intro m hm
    have : Tri h.stack h.used (do m; pure none : Mem Roots) fun t R' => t = none ∧ R' = h.used := hm.run fun _ => Tri.pure ⟨rfl, rfl⟩
    obtain ⟨t, h', e, ok, -, rfl, hu⟩ := this h hok rfl rfl
    exact ⟨none, h', e, ok, by rw [hu]; exact (zero_add _).symm, rfl⟩
  cases j with
  | none => exact ⟨none, h, rfl, hok, (zero_add _).symm, rfl⟩
  | bitSum => exact plain _ (clean_clientBit n)
  | intSum => exact plain _ (clean_clientInt n)
  | xorOp => exact plain _ (clean_clientInt n)
  | maxOp => exact plain _ (clean_clientMax _ n)
  | freq => exact plain _ (clean_clientFreq _ n)
  | var =>
    have hs : 48 * npow2 1 ≤ h.stack := by rw [npow2_one]; exact hS
    obtain ⟨t, h', e, ok, -, h1, h2, h3, hu⟩ := tri_clientVar (R := h.used) n none trivial hs h hok rfl (zero_add _).symm
    refine ⟨t, h', e, ok, hu, ?_⟩
    rw [kept_bytes h1 h2 h3, npow2_one, ClientJob.kept]
  | lin degree =>
    obtain ⟨t, h', e, ok, -, h1, h2, h3, hu⟩ := tri_clientLin (R := h.used) degree n none trivial hS h hok rfl (zero_add _).symm
    exact ⟨t, h', e, ok, hu, kept_bytes h1 h2 h3⟩

/-- A heap with a block in use, and the stack for LINREG with two features: 5 multiplications, 8 points. -/
example : (⟨1, [⟨0, .obj, 16⟩], 8388608⟩ : Heap).Ok ∧ (ClientJob.lin 3).stackNeed = 384 ∧ (ClientJob.lin 3).kept 7 = 256 :=
  ⟨⟨by simp, by simp⟩, by decide, by decide⟩

/-! ## Too little stack -/

theorem bad_fft {S n : ℕ} {R : Multiset Block} {tables : List Block} {points : Block} (hS : S < 24 * n) : Bad S R (fftMem n tables points) := by
  unfold fftMem
  exact Bad.bind (Tri.alloc _ _) fun _ _ _ => Bad.first (Bad.onStack hS)

theorem bad_sharePoly {S nmul N : ℕ} {R : Multiset Block} {circuit p0 p1 : List Block} (hn : nmul < N) (hS : S < 48 * N) (hc : ∀ b ∈ circuit, b ∈ R) :
    Bad S R (sharePolyMem nmul N circuit p0 p1 none) := by
  unfold sharePolyMem
  refine Bad.bind (Tri.alloc _ _) ?_
  rintro pf _ ⟨g1, -, rfl⟩
  refine Bad.bind (Tri.alloc _ _) ?_
  rintro pg _ ⟨g2, -, rfl⟩
  rw [if_neg (Nat.not_le.2 hn)]
  refine Bad.bind (tri_touchObj fun b hb => by simp [hc b hb]) ?_
  rintro _ _ rfl
  have ht := tri_tables (S := S) (R := {pg} + ({pf} + R)) N none trivial
  rw [show (Roots.owned none : Multiset Block) = 0 from rfl, zero_add] at ht
  refine Bad.bind ht ?_
  rintro ⟨M, tab⟩ _ ⟨e, -, rfl⟩
  dsimp only at *
  subst e
  rw [if_neg (lt_irrefl _)]
  by_cases h24 : S < 24 * M
  · exact Bad.first (bad_fft h24)
  refine Bad.bind (tri_fft (by omega) (fun b hb => by simp [hb]) (by simp)) ?_
  rintro qf _ ⟨g3, rfl⟩
  refine Bad.bind (tri_fft (by omega) (fun b hb => by simp [hb]) (by simp)) ?_
  rintro qg _ ⟨g4, rfl⟩
  refine Bad.bind (Tri.alloc _ _) ?_
  rintro df _ ⟨g5, -, rfl⟩
  refine Bad.bind (Tri.alloc _ _) ?_
  rintro dg _ ⟨g6, -, rfl⟩
  refine Bad.bind (tri_touchObj (by simp)) ?_
  rintro _ _ rfl
  refine Bad.bind (Tri.release (.inl g3) (by takes)) ?_
  rintro _ _ rfl
  refine Bad.bind (Tri.release (.inl g4) (by takes)) ?_
  rintro _ _ rfl
  exact Bad.first (bad_fft (by omega))

theorem bad_packets {S g nmul N : ℕ} {R : Multiset Block} (hn : nmul < N) (hS : S < 48 * N) : Bad S R (packetsMem g nmul N none) := by
  unfold packetsMem
  refine Bad.bind (Tri.newObj _) ?_
  rintro ci _ ⟨-, rfl⟩
  refine Bad.bind (tri_touchObj fun b hb => by simp [hb]) ?_
  rintro _ _ rfl
  refine Bad.bind (Tri.newObj _) ?_
  rintro p0 _ ⟨-, rfl⟩
  refine Bad.bind (Tri.newObj _) ?_
  rintro p1 _ ⟨-, rfl⟩
  exact Bad.first (bad_sharePoly hn hS fun b hb => by simp [hb])

/-- The need is exact: with less stack the first submission is the end of the client. -/
theorem C85_stack (j : ClientJob) (b n : ℕ) (h : Heap) (hok : h.Ok) (hn : n ≠ 0) (hS : h.stack < j.stackNeed) : clientMem j b n h = none := by
  obtain ⟨n, rfl⟩ := Nat.exists_eq_succ_of_ne_zero hn
  have key : Bad h.stack h.used (clientMem j b (n + 1)) := by
    cases j with
    | var =>
      have hs : h.stack < 48 * npow2 1 := by rw [npow2_one]; exact hS
      unfold clientMem clientVarMem
      refine Bad.bind (Tri.alloc _ _) ?_
      rintro v0 _ ⟨-, -, rfl⟩
      refine Bad.bind (Tri.alloc _ _) ?_
      rintro v1 _ ⟨-, -, rfl⟩
      refine Bad.bind (Tri.alloc _ _) ?_
      rintro k0 _ ⟨-, -, rfl⟩
      refine Bad.bind (Tri.alloc _ _) ?_
      rintro k1 _ ⟨-, -, rfl⟩
      refine Bad.bind (Tri.newObj _) ?_
      rintro mo _ ⟨-, rfl⟩
      refine Bad.bind (Tri.deleteObj (by takes)) ?_
      rintro _ _ rfl
      refine Bad.first ?_
      unfold varMakeMem
      refine Bad.bind (tri_touchObj (by simp)) ?_
      rintro _ _ rfl
      exact Bad.first (bad_packets (lt_npow2 1) hs)
    | lin degree =>
      unfold clientMem clientLinMem
      refine Bad.bind (Tri.alloc _ _) ?_
      rintro xa _ ⟨-, -, rfl⟩
      refine Bad.bind (Tri.alloc _ _) ?_
      rintro ya _ ⟨-, -, rfl⟩
      refine Bad.bind (Tri.newObj _) ?_
      rintro nine _ ⟨-, rfl⟩
      refine Bad.bind (Tri.alloc _ _) ?_
      rintro s0 _ ⟨-, -, rfl⟩
      refine Bad.bind (Tri.alloc _ _) ?_
      rintro s1 _ ⟨-, -, rfl⟩
      refine Bad.bind (Tri.alloc _ _) ?_
      rintro k0 _ ⟨-, -, rfl⟩
      refine Bad.bind (Tri.alloc _ _) ?_
      rintro k1 _ ⟨-, -, rfl⟩
      refine Bad.bind (Tri.alloc _ _) ?_
      rintro inp _ ⟨-, -, rfl⟩
      refine Bad.bind (Tri.newObj _) ?_
      rintro mo _ ⟨-, rfl⟩
      refine Bad.bind (Tri.deleteObj (by takes)) ?_
      rintro _ _ rfl
      refine Bad.first ?_
      unfold linMakeMem linSixMem
      refine Bad.bind (tri_touchObj ?_) ?_
      · intro b hb
        simp only [List.mem_cons] at hb
        simp only [Multiset.mem_add, Multiset.mem_singleton, Multiset.mem_coe]
        tauto
      rintro _ _ rfl
      refine Bad.bind (Tri.newObj _) ?_
      rintro six _ ⟨-, rfl⟩
      refine Bad.bind (tri_touchObj fun b hb => by simp [hb]) ?_
      rintro _ _ rfl
      exact Bad.first (bad_packets (lt_npow2 _) hS)
    | none => exact absurd hS (Nat.not_lt_zero _)
    | bitSum => exact absurd hS (Nat.not_lt_zero _)
    | intSum => exact absurd hS (Nat.not_lt_zero _)
    | xorOp => exact absurd hS (Nat.not_lt_zero _)
    | maxOp => exact absurd hS (Nat.not_lt_zero _)
    | freq => exact absurd hS (Nat.not_lt_zero _)
  exact key h hok rfl rfl

theorem linMuls_mono {d e : ℕ} (h : d ≤ e) : linMuls d ≤ linMuls e := by
  unfold linMuls linQuad linXs
  have h1 : d - 1 ≤ e - 1 := by omega
  have h2 : (d - 1) * (d - 1 + 1) ≤ (e - 1) * (e - 1 + 1) := Nat.mul_le_mul h1 (by omega)
  have := Nat.div_le_div_right (c := 2) h2
  omega

theorem npow2_mono {m n : ℕ} (h : m ≤ n) : npow2 m ≤ npow2 n := Nat.pow_le_pow_right (by decide) (Nat.size_le_size h)

/-- With a stack of 8 MiB the client can upload for LINREG exactly up to degree 511. -/
theorem C85_degree (degree b n : ℕ) (h : Heap) (hok : h.Ok) (hn : n ≠ 0) (hS : h.stack = 8388608) : (clientMem (.lin degree) b n h).isSome ↔ degree ≤ 511 := by
  constructor
  · intro hs
    by_contra hd
    have h1 : npow2 (linMuls 512) ≤ npow2 (linMuls degree) := npow2_mono (linMuls_mono (by omega))
    have h2 : npow2 (linMuls 512) = 262144 := by decide +kernel
    rw [C85_stack (.lin degree) b n h hok hn (by rw [hS]; simp only [ClientJob.stackNeed]; omega)] at hs
    cases hs
  · intro hd
    have h1 : npow2 (linMuls degree) ≤ npow2 (linMuls 511) := npow2_mono (linMuls_mono hd)
    have h2 : npow2 (linMuls 511) = 131072 := by decide +kernel
    obtain ⟨t, h', e, -⟩ := C85_client (.lin degree) b n h hok (by rw [hS]; simp only [ClientJob.stackNeed]; omega)
    rw [e]
    rfl

example : (⟨0, [], 8388608⟩ : Heap).Ok := ⟨by simp, by simp⟩

end Verif

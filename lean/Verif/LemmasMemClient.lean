import Verif.ModelMemClient
import Verif.LemmasMemSnip
import Mathlib.Data.Nat.Size

/-! # Memory of the client program: lemmas -/

namespace Verif

variable {S : ℕ} {R : Multiset Block} {α : Type}

theorem tri_touchObj {o : List Block} (h : ∀ b ∈ o, b ∈ R) : Tri S R (touchObj o) fun _ R' => R' = R := by
  refine Tri.bind (Tri.each_keep fun b hb => Tri.touch (h b hb)) ?_
  rintro _ _ rfl
  exact Tri.pure rfl

/-- Uses an object whose blocks are in sight. -/
macro "use_obj" : tactic => `(tactic| (refine Tri.bind (tri_touchObj (by simp)) ?_; intro _ R1 hR1; subst hR1))

theorem clean_clientBit (n : ℕ) : Clean (clientBitMem n) := by
  intro S R
  unfold clientBitMem
  new s0 h0
  new s1 h1
  iterate 2
    refine Tri.bind (Tri.times_keep ?_) ?_
    · use_ptr
      exact Tri.touch (by simp)
    rintro _ _ rfl
  rel
  exact Tri.release (.inl h1) (by takes)

theorem clean_clientInt (n : ℕ) : Clean (clientIntMem n) := by
  intro S R
  unfold clientIntMem
  new s0 h0
  new s1 h1
  iterate 2
    refine Tri.bind (Tri.times_keep ?_) ?_
    · use_ptr
      exact Tri.touch (by simp)
    rintro _ _ rfl
  rel
  exact Tri.release (.inl h1) (by takes)

/-- The two arrays of every submission of MAX, MIN and FREQ. -/
def twoRows (r : Block × Block) : Multiset Block := {r.1} + {r.2}

theorem tri_twoRows {n c : ℕ} {o : List Block} (ho : ∀ b ∈ o, b ∈ R) :
    Tri S R (Verif.times n do
      touchObj o
      let a0 ← Verif.alloc .arr c
      let a1 ← Verif.alloc .arr c
      pure (a0, a1)) fun rs R' => (∀ r ∈ rs, r.1.way = .arr ∧ r.2.way = .arr) ∧ R' = (rs.map twoRows).sum + R := by
  refine (Tri.times (out := twoRows) (P := fun r => r.1.way = .arr ∧ r.2.way = .arr) fun R' hR => ?_).conseq ?_
  · refine Tri.bind (tri_touchObj fun b hb => Multiset.mem_of_le hR (ho b hb)) ?_
    rintro _ _ rfl
    new a0 h0
    new a1 h1
    exact Tri.pure ⟨⟨h0, h1⟩, by simp only [twoRows]; abel⟩
  · rintro rs _ ⟨-, h1, rfl⟩
    exact ⟨h1, rfl⟩

theorem tri_sendRows {rs : List (Block × Block)} {o : List Block} {m : Mem Unit} (hm : Clean m) (hw : ∀ r ∈ rs, r.1.way = .arr ∧ r.2.way = .arr) (ho : ∀ b ∈ o, b ∈ R) :
    Tri S ((rs.map twoRows).sum + R) (Verif.each rs fun r => do
      touchObj o
      touchObj [r.1, r.2]
      m
      release .arr r.1
      release .arr r.2) fun _ R' => R' = R := by
  refine (Tri.each (out := fun _ => 0) (P := fun _ _ => True) ?_).conseq ?_
  · rintro ⟨a, b⟩ hab R' hR
    obtain ⟨h1, h2⟩ := hw _ hab
    dsimp only at h1 h2
    simp only [twoRows]
    rw [add_assoc]
    refine Tri.bind (tri_touchObj fun b hb => ?_) ?_
    · have := Multiset.mem_of_le hR (ho b hb)
      simp [this]
    rintro _ _ rfl
    use_obj
    refine hm.run fun _ => ?_
    rel
    refine (Tri.release (.inl h2) (by takes)).conseq ?_
    rintro _ _ rfl
    exact ⟨trivial, by simp⟩
  · rintro _ _ ⟨-, rfl⟩
    simp

theorem clean_pure : Clean (Pure.pure () : Mem Unit) := fun _ _ => Tri.pure rfl

theorem clean_clientMax (B n : ℕ) : Clean (clientMaxMem B n) := by
  intro S R
  unfold clientMaxMem
  new en h1
  new a0 h2
  new a1 h3
  new s0 h4
  new s1 h5
  refine Tri.bind (tri_twoRows (by simp)) ?_
  rintro rs _ ⟨hw, rfl⟩
  rel
  rel
  rel
  have := tri_sendRows (S := S) (R := {s1} + ({s0} + R)) (rs := rs) (o := [s0, s1]) clean_pure hw (by simp)
  simp only [pure_bind] at this
  refine Tri.bind this ?_
  rintro _ _ rfl
  rel
  exact Tri.release (.inl h5) (by takes)

theorem clean_clientFreq (M n : ℕ) : Clean (clientFreqMem M n) := by
  intro S R
  unfold clientFreqMem
  new co h1
  new s0 h4
  new s1 h5
  refine Tri.bind (tri_twoRows (by simp)) ?_
  rintro rs _ ⟨hw, rfl⟩
  have hb : Clean (do boolsMem M; boolsMem M) := fun S R => (clean_bools M).run fun _ => clean_bools M S R
  have := tri_sendRows (S := S) (R := {s1} + ({s0} + ({co} + R))) (rs := rs) (o := [s0, s1]) hb hw (by simp)
  simp only [bind_assoc] at this
  refine Tri.bind this ?_
  rintro _ _ rfl
  rel
  rel
  use_ptr
  exact Tri.release (.inl h1) (by takes)

/-! ## Packets -/

/-- The blocks of the tables. -/
def Roots.owned : Roots → Multiset Block
  | some (_, o) => ↑o
  | none => 0

/-- There are no tables, or tables for `N` points. -/
def Roots.For (N : ℕ) : Roots → Prop
  | some (M, o) => M = N ∧ bytesOf (↑o : Multiset Block) = 32 * N
  | none => True

theorem tri_fft {n : ℕ} {tables : List Block} {points : Block} (hS : 24 * n ≤ S) (ht : ∀ b ∈ tables, b ∈ R) (hp : points ∈ R) :
    Tri S R (fftMem n tables points) fun b R' => b.way = .raw ∧ R' = {b} + R := by
  unfold fftMem
  new out h1
  refine Tri.bind (Tri.onStack hS) ?_
  rintro _ _ rfl
  refine Tri.bind (tri_touchObj fun b hb => by simp [ht b hb]) ?_
  rintro _ _ rfl
  refine Tri.bind (Tri.touch (by simp [hp])) ?_
  rintro _ _ rfl
  exact Tri.pure ⟨h1, rfl⟩

/-- The tables at hand after line 46 of `client.h`. -/
theorem tri_tables (N : ℕ) (t : Roots) (ht : t.For N) :
    Tri S (t.owned + R) (tablesMem N t) fun r R' => r.1 = N ∧ bytesOf (↑r.2 : Multiset Block) = 32 * N ∧ R' = ↑r.2 + R := by
  unfold tablesMem
  rcases t with _ | ⟨M, o⟩
  · dsimp only
    refine Tri.pre (zero_add R) (Tri.bind (Tri.newObj _) ?_)
    rintro o _ ⟨h1, rfl⟩
    refine Tri.pure ⟨rfl, ?_, rfl⟩
    dsimp only
    rw [bytesOf_shape h1]
    simp
    omega
  · exact Tri.pure ⟨ht.1, ht.2, rfl⟩

theorem tri_sharePoly {nmul N : ℕ} {circuit p0 p1 : List Block} (t : Roots) (hn : nmul < N) (hS : 48 * N ≤ S) (ht : t.For N)
    (hc : ∀ b ∈ circuit, b ∈ R) (h0 : ∀ b ∈ p0, b ∈ R) (h1 : ∀ b ∈ p1, b ∈ R) :
    Tri S (t.owned + R) (sharePolyMem nmul N circuit p0 p1 t) fun t' R' => (∃ r, t' = some r) ∧ t'.For N ∧ R' = t'.owned + R := by
  unfold sharePolyMem
  new pf g1
  new pg g2
  rw [if_neg (Nat.not_le.2 hn)]
  refine Tri.bind (tri_touchObj fun b hb => by simp [hc b hb]) ?_
  rintro _ _ rfl
  refine Tri.pre (R' := t.owned + ({pg} + ({pf} + R))) (by abel) (Tri.bind (tri_tables N t ht) ?_)
  rintro ⟨M, tab⟩ _ ⟨e, hb, rfl⟩
  dsimp only at *
  subst e
  rw [if_neg (lt_irrefl _)]
  refine Tri.bind (tri_fft (by omega) (fun b hb => by simp [hb]) (by simp)) ?_
  rintro qf _ ⟨g3, rfl⟩
  refine Tri.bind (tri_fft (by omega) (fun b hb => by simp [hb]) (by simp)) ?_
  rintro qg _ ⟨g4, rfl⟩
  new df g5
  new dg g6
  use_obj
  rel
  rel
  refine Tri.bind (tri_fft (by omega) (fun b hb => by simp [hb]) (by simp)) ?_
  rintro ef _ ⟨g7, rfl⟩
  refine Tri.bind (tri_fft (by omega) (fun b hb => by simp [hb]) (by simp)) ?_
  rintro eg _ ⟨g8, rfl⟩
  refine Tri.bind (tri_touchObj fun b hb => by simp [h0 b hb]) ?_
  rintro _ _ rfl
  refine Tri.bind (tri_touchObj fun b hb => by simp [h1 b hb]) ?_
  rintro _ _ rfl
  refine Tri.bind (tri_touchObj fun b hb => by simp [hc b hb]) ?_
  rintro _ _ rfl
  refine Tri.bind (Tri.newObj _) ?_
  rintro tr _ ⟨-, rfl⟩
  refine Tri.bind (tri_touchObj fun b hb => by simp [hb]) ?_
  rintro _ _ rfl
  refine Tri.bind (Tri.deleteObj (by takes)) ?_
  rintro _ _ rfl
  rel
  rel
  rel
  rel
  rel
  rel
  exact Tri.pure ⟨⟨_, rfl⟩, ⟨rfl, hb⟩, rfl⟩

/-- The two packets of a submission. -/
def twoPackets (p : List Block × List Block) : Multiset Block := ↑p.1 + ↑p.2

theorem tri_packets {g nmul N : ℕ} (t : Roots) (hn : nmul < N) (hS : 48 * N ≤ S) (ht : t.For N) :
    Tri S (t.owned + R) (packetsMem g nmul N t) fun r R' => (∃ s, r.2 = some s) ∧ r.2.For N ∧ R' = r.2.owned + (twoPackets r.1 + R) := by
  unfold packetsMem
  refine Tri.bind (Tri.newObj _) ?_
  rintro ci _ ⟨-, rfl⟩
  refine Tri.bind (tri_touchObj fun b hb => by simp [hb]) ?_
  rintro _ _ rfl
  refine Tri.bind (Tri.newObj _) ?_
  rintro p0 _ ⟨-, rfl⟩
  refine Tri.bind (Tri.newObj _) ?_
  rintro p1 _ ⟨-, rfl⟩
  refine Tri.pre (R' := t.owned + (↑ci + (↑p0 + (↑p1 + R)))) (by abel) (Tri.bind (tri_sharePoly t hn hS ht (fun b hb => by simp [hb]) (fun b hb => by simp [hb])
    (fun b hb => by simp [hb])) ?_)
  rintro t' _ ⟨h1, h2, rfl⟩
  refine Tri.bind (Tri.deleteObj (by takes)) ?_
  rintro _ _ rfl
  exact Tri.pure ⟨h1, h2, by simp only [twoPackets]; abel⟩

theorem tri_varMake {arrays : List Block} {N : ℕ} (hn : 1 < N) (hS : 48 * N ≤ S) : ∀ (n : ℕ) (t : Roots) (_ : t.For N) (R : Multiset Block) (_ : ∀ b ∈ arrays, b ∈ R),
    Tri S (t.owned + R) (varMakeMem arrays N n t) fun r R' => r.1.length = n ∧ (n = 0 → r.2 = t) ∧ (n ≠ 0 → ∃ s, r.2 = some s) ∧ r.2.For N ∧
      R' = (r.1.map twoPackets).sum + (r.2.owned + R)
  | 0, t, ht, R, _ => Tri.pure ⟨rfl, fun _ => rfl, fun h => absurd rfl h, ht, by simp⟩
  | n + 1, t, ht, R, ha => by
    unfold varMakeMem
    refine Tri.bind (tri_touchObj fun b hb => by simp [ha b hb]) ?_
    rintro _ _ rfl
    refine Tri.bind (tri_packets t hn hS ht) ?_
    rintro ⟨p, t'⟩ _ ⟨⟨s, hs⟩, h2, rfl⟩
    dsimp only at *
    refine Tri.bind (tri_varMake hn hS n t' h2 (twoPackets p + R) fun b hb => by simp [ha b hb]) ?_
    rintro ⟨ps, t''⟩ _ ⟨h3, h4, h5, h6, rfl⟩
    dsimp only at *
    refine Tri.pure ⟨by simp [h3], fun h => absurd h (by omega), fun _ => ?_, h6, ?_⟩
    · rcases Nat.eq_zero_or_pos n with h | h
      · exact ⟨s, (h4 h).trans hs⟩
      · exact h5 (by omega)
    · simp only [List.map_cons, List.sum_cons]
      abel

/-- Sends and deletes the packets (client.cpp:807-817). -/
theorem tri_sendPackets {ps : List (List Block × List Block)} {o : List Block} (ho : ∀ b ∈ o, b ∈ R) :
    Tri S ((ps.map twoPackets).sum + R) (Verif.each ps fun p => do
      touchObj o
      touchObj p.1
      touchObj p.2
      Verif.deleteObj p.1
      Verif.deleteObj p.2) fun _ R' => R' = R := by
  refine (Tri.each (out := fun _ => 0) (P := fun _ _ => True) ?_).conseq ?_
  · rintro ⟨a, b⟩ hab R' hR
    simp only [twoPackets]
    rw [add_assoc]
    refine Tri.bind (tri_touchObj fun b hb => ?_) ?_
    · have := Multiset.mem_of_le hR (ho b hb)
      simp [this]
    rintro _ _ rfl
    refine Tri.bind (tri_touchObj fun b hb => by simp [hb]) ?_
    rintro _ _ rfl
    refine Tri.bind (tri_touchObj fun b hb => by simp [hb]) ?_
    rintro _ _ rfl
    refine Tri.bind (Tri.deleteObj (by takes)) ?_
    rintro _ _ rfl
    refine (Tri.deleteObj (by takes)).conseq ?_
    rintro _ _ rfl
    exact ⟨trivial, by simp⟩
  · rintro _ _ ⟨-, rfl⟩
    simp

theorem lt_npow2 (n : ℕ) : n < npow2 n := Nat.lt_size_self n

theorem tri_clientVar (n : ℕ) (t : Roots) (ht : t.For (npow2 1)) (hS : 48 * npow2 1 ≤ S) :
    Tri S (t.owned + R) (clientVarMem n t) fun t' R' => (n = 0 → t' = t) ∧ (n ≠ 0 → ∃ s, t' = some s) ∧ t'.For (npow2 1) ∧ R' = t'.owned + R := by
  unfold clientVarMem
  new v0 h1
  new v1 h2
  new k0 h3
  new k1 h4
  refine Tri.bind (Tri.newObj _) ?_
  rintro mo _ ⟨-, rfl⟩
  refine Tri.bind (Tri.deleteObj (by takes)) ?_
  rintro _ _ rfl
  refine Tri.pre (R' := t.owned + ({v0} + ({v1} + ({k0} + ({k1} + R))))) (by abel) (Tri.bind (tri_varMake (lt_npow2 1) hS n t ht _ (by simp)) ?_)
  rintro ⟨ps, t'⟩ _ ⟨-, h5, h6, h7, rfl⟩
  dsimp only at *
  refine Tri.bind (tri_sendPackets (by simp)) ?_
  rintro _ _ rfl
  rel
  rel
  rel
  rel
  exact Tri.pure ⟨h5, h6, h7, rfl⟩

/-- What a LINREG submission holds. -/
def sixAndPackets (p : List Block × List Block × List Block) : Multiset Block := ↑p.1 + twoPackets p.2

theorem tri_linMake {arrays : List Block} {degree N : ℕ} (hn : linMuls degree < N) (hS : 48 * N ≤ S) :
    ∀ (n : ℕ) (t : Roots) (_ : t.For N) (R : Multiset Block) (_ : ∀ b ∈ arrays, b ∈ R),
    Tri S (t.owned + R) (linMakeMem arrays degree N n t) fun r R' => (n = 0 → r.2 = t) ∧ (n ≠ 0 → ∃ s, r.2 = some s) ∧ r.2.For N ∧
      R' = (r.1.map sixAndPackets).sum + (r.2.owned + R)
  | 0, t, ht, R, _ => Tri.pure ⟨fun _ => rfl, fun h => absurd rfl h, ht, by simp⟩
  | n + 1, t, ht, R, ha => by
    unfold linMakeMem linSixMem
    refine Tri.bind (tri_touchObj fun b hb => by simp [ha b hb]) ?_
    rintro _ _ rfl
    refine Tri.bind (Tri.newObj _) ?_
    rintro six _ ⟨-, rfl⟩
    refine Tri.bind (tri_touchObj fun b hb => by simp [hb]) ?_
    rintro _ _ rfl
    refine Tri.pre (R' := t.owned + (↑six + R)) (by abel) (Tri.bind (tri_packets t hn hS ht) ?_)
    rintro ⟨p, t'⟩ _ ⟨⟨s, hs⟩, h2, rfl⟩
    dsimp only at *
    refine Tri.bind (tri_linMake hn hS n t' h2 (twoPackets p + (↑six + R)) fun b hb => by simp [ha b hb]) ?_
    rintro ⟨ps, t''⟩ _ ⟨h4, h5, h6, rfl⟩
    dsimp only at *
    refine Tri.pure ⟨fun h => absurd h (by omega), fun _ => ?_, h6, ?_⟩
    · rcases Nat.eq_zero_or_pos n with h | h
      · exact ⟨s, (h4 h).trans hs⟩
      · exact h5 (by omega)
    · simp only [List.map_cons, List.sum_cons, sixAndPackets]
      abel

/-- Sends and deletes the rows (client.cpp:1142-1157). -/
theorem tri_sendLin {ps : List (List Block × List Block × List Block)} {o : List Block} (ho : ∀ b ∈ o, b ∈ R) :
    Tri S ((ps.map sixAndPackets).sum + R) (Verif.each ps fun p => do
      touchObj o
      touchObj p.1
      touchObj p.2.1
      touchObj p.2.2
      Verif.deleteObj p.1
      Verif.deleteObj p.2.1
      Verif.deleteObj p.2.2) fun _ R' => R' = R := by
  refine (Tri.each (out := fun _ => 0) (P := fun _ _ => True) ?_).conseq ?_
  · rintro ⟨a, b, c⟩ hab R' hR
    simp only [twoPackets, sixAndPackets]
    rw [add_assoc, add_assoc]
    refine Tri.bind (tri_touchObj fun b hb => ?_) ?_
    · have := Multiset.mem_of_le hR (ho b hb)
      simp [this]
    rintro _ _ rfl
    iterate 3
      refine Tri.bind (tri_touchObj fun b hb => by simp [hb]) ?_
      rintro _ _ rfl
    iterate 2
      refine Tri.bind (Tri.deleteObj (by takes)) ?_
      rintro _ _ rfl
    refine (Tri.deleteObj (by takes)).conseq ?_
    rintro _ _ rfl
    exact ⟨trivial, by simp⟩
  · rintro _ _ ⟨-, rfl⟩
    simp

theorem tri_clientLin (degree n : ℕ) (t : Roots) (ht : t.For (npow2 (linMuls degree))) (hS : 48 * npow2 (linMuls degree) ≤ S) :
    Tri S (t.owned + R) (clientLinMem degree n t) fun t' R' => (n = 0 → t' = t) ∧ (n ≠ 0 → ∃ s, t' = some s) ∧ t'.For (npow2 (linMuls degree)) ∧
      R' = t'.owned + R := by
  unfold clientLinMem
  new xa h1
  new ya h2
  refine Tri.bind (Tri.newObj _) ?_
  rintro nine _ ⟨-, rfl⟩
  new s0 h3
  new s1 h4
  new k0 h5
  new k1 h6
  new inp h7
  refine Tri.bind (Tri.newObj _) ?_
  rintro mo _ ⟨-, rfl⟩
  refine Tri.bind (Tri.deleteObj (by takes)) ?_
  rintro _ _ rfl
  refine Tri.pre (R' := t.owned + ({inp} + ({k1} + ({k0} + ({s1} + ({s0} + (↑nine + ({ya} + ({xa} + R))))))))) (by abel)
    (Tri.bind (tri_linMake (lt_npow2 _) hS n t ht _ ?_) ?_)
  · intro b hb
    simp only [List.mem_cons] at hb
    simp only [Multiset.mem_add, Multiset.mem_singleton, Multiset.mem_coe]
    tauto
  rintro ⟨ps, t'⟩ _ ⟨g1, g2, g3, rfl⟩
  dsimp only at *
  refine Tri.bind (Tri.touch (by simp)) ?_
  rintro _ _ rfl
  refine Tri.bind (Tri.deleteObj (by takes)) ?_
  rintro _ _ rfl
  refine Tri.bind (tri_sendLin (by simp)) ?_
  rintro _ _ rfl
  rel
  rel
  rel
  rel
  rel
  new c h8
  use_obj
  rel
  rel
  use_ptr
  rel
  exact Tri.pure ⟨g1, g2, g3, rfl⟩

end Verif

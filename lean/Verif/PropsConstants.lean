import Verif.LemmasRoots

/-!
# C01, C02: field constants and root tables
-/

namespace Verif

/-- C01. The configured modulus is prime and the configured generator has order exactly `2^19`. -/
theorem C01_constants :
    Nat.Prime intModulus ∧ orderOf ((intGen : ℕ) : ZMod intModulus) = 2 ^ twoOrder ∧
    ((intGen : ℕ) : ZMod intModulus) ^ (2 ^ (twoOrder - 1)) = -1 :=
  ⟨intModulus_prime, intGen_orderOf, intGen_half⟩

/-- All sequences of calls with supported sizes. -/
inductive RootCalls : List ℕ → RootTables → Prop
  | start : RootCalls [] RootTables.start
  | call {l st k t} : RootCalls l st → k ≤ 18 →
      initRoots intModulus intGen twoOrder st (2 ^ k) = some t → RootCalls (2 ^ k :: l) t

/-- C02. After any sequence of `init_roots` calls with power-of-two sizes up to `2^18` the tables are right for
the size of the last call, and the next call succeeds. -/
theorem C02_tables_after_any_history (l : List ℕ) (st : RootTables) (h : RootCalls l st) :
    (∀ N l', l = N :: l' → TablesOK intModulus N st) ∧
    (∀ k, k ≤ 18 → ∃ t, initRoots intModulus intGen twoOrder st (2 ^ k) = some t) := by
  constructor
  · induction h with
    | start => intro N l' h; cases h
    | @call l st k t h hk hc ih =>
      intro N l' hl
      injection hl with h1 h2
      subst h1
      by_cases hn : st.num = 2 ^ k
      · have : initRoots intModulus intGen twoOrder st (2 ^ k) = some st := by
          unfold initRoots; rw [if_pos hn]
        rw [this] at hc; injection hc with hc; subst hc
        cases h with
        | start => exact absurd hn.symm (by simp [RootTables.start])
        | @call l0 st0 k0 t0 h0 hk0 hc0 =>
          have := ih (2 ^ k0) l0 rfl
          have hnum := this.num
          rw [← hnum, hn] at this
          exact this
      · obtain ⟨t', ht', hok⟩ := initRoots_ok st k hk hn
        rw [ht'] at hc; injection hc with hc; subst hc; exact hok
  · intro k hk
    by_cases hn : st.num = 2 ^ k
    · exact ⟨st, by unfold initRoots; rw [if_pos hn]⟩
    · obtain ⟨t, ht, _⟩ := initRoots_ok st k hk hn
      exact ⟨t, ht⟩

/-- Non-vacuity: a history with two different sizes exists. -/
example : ∃ st, RootCalls [2 ^ 3, 2 ^ 1] st := by
  obtain ⟨t, ht⟩ := (C02_tables_after_any_history [] _ .start).2 1 (by norm_num)
  have h1 := RootCalls.call .start (by norm_num) ht
  obtain ⟨t', ht'⟩ := (C02_tables_after_any_history _ _ h1).2 3 (by norm_num)
  exact ⟨t', RootCalls.call h1 (by norm_num) ht'⟩

/-- C02, cache: a repeated call changes nothing. -/
theorem C02_repeat_is_noop (st t : RootTables) (N : ℕ)
    (h : initRoots intModulus intGen twoOrder st N = some t) :
    initRoots intModulus intGen twoOrder t N = some t := by
  have : t.num = N := by
    unfold initRoots at h
    split at h
    · next hn => injection h with h; subst h; exact hn
    · split at h
      · cases h
      · cases hg : invmod (↑intGen) intModulus with
        | none => rw [hg] at h; cases h
        | some gi => rw [hg] at h; injection h with h; subst h; rfl
  unfold initRoots; rw [if_pos this]

/-- C02, limit: at size `2^19` (the full order of the generator) the table of `2N`-th roots is constantly 1,
so the tables are not right. -/
theorem C02_false_at_full_order (t : RootTables)
    (h : initRoots intModulus intGen twoOrder RootTables.start (2 ^ 19) = some t) :
    (∀ x ∈ t.roots2, x = 1) ∧ ¬ TablesOK intModulus (2 ^ 19) t := by
  have hall : t.roots2.length = 2 * 2 ^ 19 ∧ ∀ x ∈ t.roots2, x = 1 := by
    unfold initRoots at h
    have h0 : RootTables.start.num ≠ 2 ^ 19 := by decide
    rw [if_neg h0, if_neg (by positivity)] at h
    cases hg : invmod (↑intGen) intModulus with
    | none => rw [hg] at h; cases h
    | some gi =>
      rw [hg] at h
      injection h with h
      subst h
      refine ⟨by simp only [rootTable_length], ?_⟩
      intro x hx
      simp only [rootTable, List.mem_map] at hx
      obtain ⟨i, _, rfl⟩ := hx
      have hstep : 2 ^ twoOrder / 2 ^ 19 / 2 = 0 := by decide
      rw [hstep]
      have h1 : powm (↑intGen) 0 intModulus = 1 := by decide
      rw [h1]
      induction i with
      | zero => rfl
      | succ i ih => simp only [rootEntry]; rw [ih (by simp_all; omega)]; decide
  refine ⟨hall.2, fun hok => ?_⟩
  have hnd := hok.nodup2
  have h0 : 0 < t.roots2.length := by rw [hall.1]; norm_num
  have h1 : 1 < t.roots2.length := by rw [hall.1]; norm_num
  have e : t.roots2[0] = t.roots2[1] := by
    rw [hall.2 _ (List.getElem_mem h0), hall.2 _ (List.getElem_mem h1)]
  have := (List.Nodup.getElem_inj_iff hnd).1 e
  omega

end Verif

import Verif.LemmasVarOp
import Verif.LemmasRd
import Verif.PropsZk

/-! # Lemmas about whole batches: honest and dishonest submissions, and the streams they arrive on -/

namespace Verif

/-- An honest packet passes whatever the point and the coefficients. -/
theorem accepts_honest {c : Circuit} (wf : c.WF) {inps inps' w : List ℤ} (hev : c.eval intModulus inps' = some (w, true))
    (hl : inps.length = inps'.length) (hi : ∀ k < inps'.length, (at0 inps k : ZMod intModulus) = at0 inps' k)
    {t : RootTables} {l : List ℕ} (hrc : RootCalls (npow2 c.mulGates.length :: l) t)
    {r : SnipRand} (hrh : r.h.length = npow2 c.mulGates.length) (hrm : r.mul.length = c.mulGates.length)
    {pk : Packet × Packet} (hpk : sharePolynomials intModulus c w t r = some pk)
    {x : ℤ} (hx : Canon x intModulus) {cs : List ℤ} (hcs : c.resultZero.length + 1 ≤ cs.length) :
    Accepts c x cs inps pk.1 pk.2 := by
  obtain ⟨pk0, pk1, pre, k0, k1, o0, o1, h1, h2, h3, h4, h5, h6, h7, -⟩ := C30_accept wf hev hl
    (i1 := List.replicate inps.length 0) (by simpa using hl) (fun k hk => by
      have : at0 (List.replicate inps.length 0) k = 0 := by
        simp only [at0, List.getD_eq_getElem?_getD, List.getElem?_replicate]
        split_ifs <;> rfl
      rw [this, hi k hk]; simp) hrc hrc hrh hrm hx hcs
  rw [hpk] at h1
  cases h1
  exact ⟨t, l, pre, k0, k1, o0, o1, hrc, h2, h3, h4, h5, h6, h7⟩

/-- A submission that fails the circuit passes the check with few coefficients only, whatever its packets. -/
theorem accepts_count {c : Circuit} (hc : CircOk c) {inps w : List ℤ} (hev : c.eval intModulus inps = some (w, false))
    (hcan : ∀ v ∈ inps, Canon v intModulus) {pk0 pk1 : Packet} (h0 : PacketOk c pk0) (h1 : PacketOk c pk1) :
    ∃ bad : Finset (ZMod intModulus), bad.card ≤ 2 * npow2 c.mulGates.length ∧
      ∀ x, Canon x intModulus → (x : ZMod intModulus) ∉ bad →
        {cs : List ℤ | cs.length = c.resultZero.length + 1 ∧ (∀ y ∈ cs, IsDraw y intModulus) ∧
          Accepts c x cs inps pk0 pk1}.ncard = intModulus ^ c.resultZero.length := by
  obtain ⟨t, hrc⟩ := C30_sizes hc.small [] _ .start
  obtain ⟨bad, hb, h⟩ := C31_soundness hc.wf hev hcan (i0 := inps) (i1 := List.replicate inps.length 0)
    ⟨by simp, h0.m, h1.m, h0.h, h1.h⟩ rfl (fun k hk => by
      have : at0 (List.replicate inps.length 0) k = 0 := by
        simp only [at0, List.getD_eq_getElem?_getD, List.getElem?_replicate]
        split_ifs; rfl
      rw [this]; simp) hrc
  refine ⟨bad, hb, fun x hx hxb => ?_⟩
  obtain ⟨pre, k0, k1, e1, e2, e3, -, e5⟩ := h x hx hxb
  rw [← e5]
  congr 1
  ext cs
  simp only [Set.mem_ofPred_eq]
  refine and_congr_right fun _ => and_congr_right fun _ => ?_
  constructor
  · rintro ⟨t', l', pre', k0', k1', o0, o1, f1, f2, f3, f4, f5, f6, f7⟩
    have htt := rootCalls_eq f1 hrc
    subst htt
    rw [e1] at f2; cases f2
    rw [e2] at f3; cases f3
    rw [e3] at f4; cases f4
    exact ⟨o0, o1, f5, f6, f7⟩
  · rintro ⟨o0, o1, f5, f6, f7⟩
    exact ⟨t, [], pre, k0, k1, o0, o1, hrc, e1, e2, e3, f5, f6, f7⟩

/-- With distinct keys the submission used for a key is the only one, if it is admissible. -/
theorem firstOf_of_mem_ok {α : Type} {ok : α → Bool} {subs : List (Bytes × α)} (hn : (subs.map (·.1)).Nodup) {e : Bytes × α}
    (he : e ∈ subs) (ho : ok e.2 = true) : firstOf ok subs e.1 = some e.2 := by
  induction subs with
  | nil => simp at he
  | cons s subs ih =>
    rw [List.map_cons, List.nodup_cons] at hn
    unfold firstOf
    rw [List.find?_cons]
    by_cases hk : s.1 = e.1
    · have : s = e := by
        rcases List.mem_cons.1 he with h | h
        · exact h.symm
        · exact absurd (List.mem_map.2 ⟨e, h, hk.symm⟩) hn.1
      subst this; simp [ho]
    · have hne : (s.1 == e.1) = false := by simpa using hk
      simp only [hne, Bool.false_and]
      rcases List.mem_cons.1 he with h | h
      · exact absurd (congrArg Prod.fst h).symm hk
      · exact ih hn.2 h

/-- Honest clients with distinct keys and admissible rows: all keys are matched. -/
theorem bothKeys_honest_ok {γ α : Type} {ok : α → Bool} (cs : List γ) (pk : γ → Bytes) (s0 s1 : γ → α) (hn : (cs.map pk).Nodup)
    (o0 : ∀ c ∈ cs, ok (s0 c) = true) (o1 : ∀ c ∈ cs, ok (s1 c) = true)
    (subs0 subs1 : List (Bytes × α)) (h0 : subs0.Perm (cs.map fun c => (pk c, s0 c)))
    (h1 : subs1.Perm (cs.map fun c => (pk c, s1 c))) :
    (∀ c ∈ cs, firstOf ok subs0 (pk c) = some (s0 c) ∧ firstOf ok subs1 (pk c) = some (s1 c)) ∧
    bothKeys ok subs0 subs1 = (cs.map pk).toFinset := by
  have hn0 : (subs0.map (·.1)).Nodup := by
    rw [(h0.map _).nodup_iff, List.map_map]; exact hn
  have hn1 : (subs1.map (·.1)).Nodup := by
    rw [(h1.map _).nodup_iff, List.map_map]; exact hn
  have hf : ∀ c ∈ cs, firstOf ok subs0 (pk c) = some (s0 c) ∧ firstOf ok subs1 (pk c) = some (s1 c) := by
    intro c hc
    exact ⟨firstOf_of_mem_ok hn0 (e := (pk c, s0 c)) (h0.mem_iff.2 (List.mem_map.2 ⟨c, hc, rfl⟩)) (o0 c hc),
      firstOf_of_mem_ok hn1 (e := (pk c, s1 c)) (h1.mem_iff.2 (List.mem_map.2 ⟨c, hc, rfl⟩)) (o1 c hc)⟩
  refine ⟨hf, ?_⟩
  ext k
  simp only [bothKeys, Finset.mem_filter, List.mem_toFinset]
  have hk : k ∈ subs0.map (·.1) ↔ k ∈ cs.map pk := by
    rw [(h0.map _).mem_iff, List.map_map]; rfl
  rw [hk]
  constructor
  · exact fun h => h.1
  · intro h
    refine ⟨h, ?_⟩
    obtain ⟨c, hc, rfl⟩ := List.mem_map.1 h
    simp [hf c hc]

/-- An admissible submission makes the map non-empty. -/
theorem admit_pos {α : Type} {ok : α → Bool} {subs : List (Bytes × α)} (h : ∃ e ∈ subs, ok e.2 = true) :
    0 < (admit ok subs []).length := by
  obtain ⟨e, he, ho⟩ := h
  have : (List.lookup e.1 (admit ok subs [])).isSome = true := by
    rw [C34_first_admissible]
    unfold firstOf
    rw [Option.isSome_map, List.find?_isSome]
    exact ⟨e, he, by simp [ho]⟩
  rw [lookup_isSome_iff] at this
  have := List.length_pos_of_mem this
  simpa [Map.keys] using this

/-- Nothing admissible: the map is empty. -/
theorem admit_none {α : Type} {ok : α → Bool} {subs : List (Bytes × α)} (h : ∀ e ∈ subs, ok e.2 = false) (m : Map α) :
    admit ok subs m = m := by
  induction subs with
  | nil => rfl
  | cons e subs ih =>
    obtain ⟨k, v⟩ := e
    have hv : ok v = false := h (k, v) (List.mem_cons_self ..)
    rw [admit, if_pos (by simp [hv])]
    exact ih fun e he => h e (List.mem_cons_of_mem _ he)

/-! ### Packets of honest clients -/

theorem wiresAt_length {w : List ℤ} : ∀ {is : List ℕ} {vs : List ℤ}, wiresAt w is = some vs → vs.length = is.length
  | [], vs, h => by cases h; rfl
  | i :: is, vs, h => by
    rw [wiresAt, Option.bind_eq_some_iff] at h
    obtain ⟨a, -, h⟩ := h
    rw [Option.map_eq_some_iff] at h
    obtain ⟨as, h, rfl⟩ := h
    simp [wiresAt_length h]

theorem zipWith_split {p : ℕ} [NeZero p] {rs vs : List ℤ} (h : ∀ x ∈ rs, IsDraw x p) :
    (∀ y ∈ List.zipWith (fun r v => (splitShare p r v).1) rs vs, Canon y p) ∧
    ∀ y ∈ List.zipWith (fun r v => (splitShare p r v).2) rs vs, Canon y p := by
  constructor
  · intro y hy
    rw [List.mem_iff_getElem] at hy
    obtain ⟨i, hi, rfl⟩ := hy
    rw [List.getElem_zipWith]
    exact h _ (List.getElem_mem _)
  · intro y hy
    rw [List.mem_iff_getElem] at hy
    obtain ⟨i, hi, rfl⟩ := hy
    rw [List.getElem_zipWith]
    exact fmod_canon _

/-- The packets of an honest client have the sizes of the circuit and numbers below the modulus. -/
theorem share_sizes {c : Circuit} {w : List ℤ} {t : RootTables} {r : SnipRand} (hr : ValidRand intModulus c r) {pk : Packet × Packet}
    (h : sharePolynomials intModulus c w t r = some pk) :
    (PacketOk c pk.1 ∧ ∀ y ∈ pk.1.all, Fits y) ∧ (PacketOk c pk.2 ∧ ∀ y ∈ pk.2.all, Fits y) := by
  simp only [sharePolynomials, Option.bind_eq_some_iff] at h
  obtain ⟨tr, -, pF, -, pG, -, eF, -, eG, -, ms, hms, h⟩ := h
  rw [Circuit.getMulShares, Option.map_eq_some_iff] at hms
  obtain ⟨vs, hvs, rfl⟩ := hms
  have hvl := wiresAt_length hvs
  cases h
  obtain ⟨a1, a2⟩ := zipWith_split (vs := vs) hr.m
  obtain ⟨b1, b2⟩ := zipWith_split (vs := oddProducts intModulus (npow2 c.mulGates.length) eF eG) hr.h
  obtain ⟨s1, s2, s3⟩ := hr.s
  obtain ⟨t1, t2, t3, t4, t5⟩ := hr.t
  refine ⟨⟨⟨by simp [hr.lm, hvl], by simp [splitAll, hr.lh, oddProducts]⟩, ?_⟩,
    ⟨⟨by simp [hr.lm, hvl], by simp [splitAll, hr.lh, oddProducts]⟩, ?_⟩⟩
  · intro y hy
    apply fits_canon
    simp only [Packet.all, List.mem_append, List.mem_cons, List.not_mem_nil, or_false] at hy
    rcases hy with ((h | h) | h) | h
    · exact a1 y h
    · rcases h with rfl | rfl | rfl
      · exact s1
      · exact s2
      · exact s3
    · exact b1 y h
    · rcases h with rfl | rfl | rfl
      · exact t3
      · exact t4
      · exact t5
  · intro y hy
    apply fits_canon
    simp only [Packet.all, List.mem_append, List.mem_cons, List.not_mem_nil, or_false] at hy
    rcases hy with ((h | h) | h) | h
    · exact a2 y h
    · rcases h with rfl | rfl | rfl <;> exact fmod_canon _
    · exact b2 y h
    · rcases h with rfl | rfl | rfl <;> exact fmod_canon _

end Verif

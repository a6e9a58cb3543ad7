import Verif.PropsEnd

/-!
# C59, continued: VAR and STDDEV from the client program to the answer printed by server 0
-/

namespace Verif

/-- The submissions of a run, with their draws: three words each, then the key. -/
def varClients : List SnipRand → Prg → List VarClient
  | [], _ => []
  | r :: rs, g => ⟨makePk { g with pos := g.pos + 3 }, g.wordAt g.pos 0, g.wordAt (g.pos + 1) 0, g.wordAt (g.pos + 2) 0, r⟩ ::
      varClients rs { g with pos := g.pos + 3 }

/-- The same blocks are taken from the generator by a loop that does nothing else. -/
def skipOne (k : ℕ) (g : Prg) : (Unit × Unit × Unit) × Prg := (((), (), ()), { g with pos := g.pos + k })

theorem skip_takes {k : ℕ} (hk : 0 < k) : Takes1 (skipOne k) k := fun g _ => ⟨g.pos + k, by omega, le_refl _, rfl⟩

/-- Keys made from blocks `k` apart are distinct. -/
theorem skip_distinct {k : ℕ} (hk : 0 < k) {n : ℕ} {g : Prg} (ha : Function.Injective g.aes) (hc : g.pos + k * n < 2 ^ 64) :
    ((uploadLoop (skipOne k) n g).map (·.pk)).Nodup := by
  have h : ((uploadLoop (skipOne k) n { g with next := fun p n => p + n / 16 + 2 }).map (·.pk)).Nodup :=
    C59_keys_distinct (skip_takes hk) (fun p n => ⟨by show p < p + n / 16 + 2; omega, le_refl _⟩) ha hc
  have e : ∀ (n : ℕ) (g : Prg) (f : ℕ → ℕ → ℕ), (uploadLoop (skipOne k) n { g with next := f }).map (·.pk) = (uploadLoop (skipOne k) n g).map (·.pk) := by
    intro n
    induction n with
    | zero => intro g f; rfl
    | succ n ih =>
      intro g f
      simp only [uploadLoop, List.map_cons, skipOne]
      have := ih { g with pos := g.pos + k } f
      simp only at this
      rw [this]; rfl
  rwa [e] at h

theorem varClients_keys : ∀ (rs : List SnipRand) (g : Prg), (varClients rs g).map (·.pk) = (uploadLoop (skipOne 3) rs.length g).map (·.pk)
  | [], _ => rfl
  | r :: rs, g => by
    rw [varClients, List.map_cons, varClients_keys rs]
    rfl

theorem varClients_rand : ∀ (rs : List SnipRand) (g : Prg), (varClients rs g).map (·.rand) = rs
  | [], _ => rfl
  | r :: rs, g => by rw [varClients, List.map_cons, varClients_rand rs]

theorem varClients_key_length : ∀ (rs : List SnipRand) (g : Prg), ∀ c ∈ varClients rs g, c.pk.length = pkLength
  | [], _, c, h => by cases h
  | r :: rs, g, c, h => by
    rcases List.mem_cons.1 h with rfl | h
    · exact C54_length _
    · exact varClients_key_length rs _ c h

/-- With set-up tables and good draws the loop ends, and its rows are those of the clients. -/
theorem varLoop_rows {nbits : ℕ} (hb : nbits ≤ 31) {t : RootTables} {l : List ℕ} (hrc : RootCalls (2 :: l) t) : ∀ (rs : List SnipRand) (g : Prg)
    (_ : ∀ r ∈ rs, ValidRand intModulus varCircuit r), ∃ rows, varLoop nbits t rs g = some rows ∧
      (sent0 rows).map some = (varClients rs g).map (fun c => (c.out nbits t).map fun o => (c.pk, o.2.1)) ∧
      (sent1 rows).map some = (varClients rs g).map (fun c => (c.out nbits t).map fun o => (c.pk, o.2.2)) ∧
      rows.map (fun r => r.real.toNat) = (varClients rs g).map (·.value nbits)
  | [], g, _ => ⟨[], rfl, rfl, rfl, rfl⟩
  | r :: rs, g, h => by
    obtain ⟨rows, e, e0, e1, e2⟩ := varLoop_rows hb hrc rs { g with pos := g.pos + 3 } fun r hr => h r (List.mem_cons_of_mem _ hr)
    obtain ⟨real, r0, r1, w, hout, hreal, -⟩ := clientVar_spec hb hrc
      ⟨makePk { g with pos := g.pos + 3 }, g.wordAt g.pos 0, g.wordAt (g.pos + 1) 0, g.wordAt (g.pos + 2) 0, r⟩ (h r List.mem_cons_self)
    have hone : varOne nbits t r g = (some (real, r0, r1), { g with pos := g.pos + 3 }) := by
      rw [← hout]; rfl
    refine ⟨⟨makePk { g with pos := g.pos + 3 }, real, r0, r1⟩ :: rows, ?_, ?_, ?_, ?_⟩
    · rw [varLoop, hone, Option.bind_some, e, Option.map_some]
    · rw [varClients, List.map_cons, hout, sent0, List.map_cons, List.map_cons, ← e0]; rfl
    · rw [varClients, List.map_cons, hout, sent1, List.map_cons, List.map_cons, ← e1]; rfl
    · rw [varClients, List.map_cons, List.map_cons, e2, hreal]

theorem sum_toNat {l : List U64} (f : U64 → U64) (h : (l.map fun v => (f v).toNat).sum < 2 ^ 64) :
    (l.foldl (fun s v => s + f v) 0#64).toNat = (l.map fun v => (f v).toNat).sum := by
  have key : ∀ (l : List U64) (s : U64), s.toNat + (l.map fun v => (f v).toNat).sum < 2 ^ 64 →
      (l.foldl (fun s v => s + f v) s).toNat = s.toNat + (l.map fun v => (f v).toNat).sum := by
    intro l
    induction l with
    | nil => intro s _; simp
    | cons v l ih =>
      intro s hs
      rw [List.map_cons, List.sum_cons] at hs ⊢
      have e : (s + f v).toNat = s.toNat + (f v).toNat := by rw [BitVec.toNat_add]; omega
      rw [List.foldl_cons, ih _ (by rw [e]; omega), e]; omega
  have := key l 0#64 (by simpa using h)
  simpa using this

/-- The client program computes the same numbers as the server, if the sum of squares stays below 2^53. -/
theorem varPrinted_eq (fma std : Bool) {vals : List U64} (hv : ∀ v ∈ vals, v.toNat < 2 ^ 32)
    (hs : ((vals.map (·.toNat)).map fun v => v ^ 2).sum < 2 ^ 53) :
    varPrinted fma std vals = varAnswer fma std ((vals.map (·.toNat)).sum : ℕ) (((vals.map (·.toNat)).map fun v => v ^ 2).sum : ℕ)
      (vals.map (·.toNat)).length := by
  have hsq : ∀ v ∈ vals, (v * v).toNat = v.toNat ^ 2 := by
    intro v hm
    have := hv v hm
    rw [BitVec.toNat_mul, ← pow_two, Nat.mod_eq_of_lt]
    calc v.toNat ^ 2 < (2 ^ 32) ^ 2 := Nat.pow_lt_pow_left this (by norm_num)
      _ = 2 ^ 64 := by norm_num
  have e2 : (vals.map fun v => (v * v).toNat) = (vals.map (·.toNat)).map fun v => v ^ 2 := by
    rw [List.map_map]; exact List.map_congr_left hsq
  have h2 := sum_toNat (l := vals) (fun v => v * v) (by rw [e2]; omega)
  have hle := sum_le_sum_sq (vals.map (·.toNat))
  have h1 := sum_toNat (l := vals) (fun v => v) (by omega)
  rw [e2] at h2
  have h1' : (vals.foldl (fun s v => s + v) 0#64).toNat = (vals.map (·.toNat)).sum := h1
  unfold varPrinted varAnswer
  simp only [h1', h2, one_mul, rnd_nat hs, rnd_nat (show (vals.map (·.toNat)).sum < 2 ^ 53 by omega), List.length_map, Int.cast_natCast]

theorem snip_fresh {x : ℤ} (hx : Canon x intModulus) (uses pos : ℕ) : SnipOk x uses pos ⟨RootTables.start, [], x, uses, pos⟩ :=
  ⟨rfl, hx, rfl, rfl, ⟨[], .start⟩, by simp⟩

theorem refresh_canon {y : Shared} {draw : ℤ} (hy : Canon y.x intModulus) (hd : Canon draw intModulus) : Canon (y.refresh draw).x intModulus := by
  unfold Shared.refresh
  split
  · exact hd
  · exact hy

/-- C59 for VAR and STDDEV, up to 24 bits, at least one submission, sum of squares below `p`: the client program runs to its end, and at
any time of a session, for every schedule and iteration order, server 0 answers with exactly the number which the client program prints (if both
programs are compiled alike), and this is, up to rounding, the population variance of the submitted values or its root. -/
theorem C59_var (c : StoreCfg) {g0 g1 : StoreRng} (hg : GoodRng intModulus g0) (fma std : Bool) {nbits : ℕ} (hb : nbits ≤ 24) (coef : ℕ → ℤ) {t : RootTables}
    {l : List ℕ} (hrc : RootCalls (2 :: l) t) {rs : List SnipRand} (hne : rs ≠ []) (hn : rs.length < 2 ^ 32)
    (hr : ∀ r ∈ rs, ValidRand intModulus varCircuit r) (mx : BitVec 32) (g : Prg) (ha : Function.Injective g.aes) (hc : g.pos + 3 * rs.length < 2 ^ 64) :
    ∃ rows b0 b1 printed, varLoop nbits t rs g = some rows ∧ varClient fma std nbits t rs mx g = some (b0, b1, printed) ∧
      (((rows.map fun r => r.real.toNat ^ 2).sum < intModulus) →
        (∃ a, printed = some a ∧ NearVar std (listVar (rows.map fun r => r.real.toNat)) (meanSq (rows.map fun r => r.real.toNat))
          (∀ u ∈ rows, ∀ v ∈ rows, u.real.toNat = v.real.toNat) a) ∧
        ∀ {e0 e1 : Env} {s0 s1 : Srv} (_ : Ready e0 e1 s0 s1 b0 b1) (_ : e0.fma = fma),
        ∃ s0' s1', Always (iteration false c g0 nbits coef e0 s0) (iteration true c g1 nbits coef e1 s1) (.real (.ans printed), s0') (.real .noAns, s1') ∧
          ∃ y, InStep y s0' s1') := by
  obtain ⟨rows, hrows, q0, q1, hvals⟩ := varLoop_rows (by omega : nbits ≤ 31) hrc rs g hr
  set cs := varClients rs g with hcs
  have hlen : cs.length = rs.length := by rw [← varClients_rand rs g, List.length_map]
  have hlen0 : (sent0 rows).length = rs.length := by have := congrArg List.length q0; simpa [hlen] using this
  have hlen1 : (sent1 rows).length = rs.length := by have := congrArg List.length q1; simpa [hlen] using this
  have hcne : cs ≠ [] := by
    intro e; rw [e] at hlen; exact hne (List.length_eq_zero_iff.1 hlen.symm)
  have hh : HonestVar nbits t cs (sent0 rows) (sent1 rows) := by
    refine ⟨⟨l, hrc⟩, ?_, varClients_key_length rs g, ?_, by rw [q0], by rw [q1]⟩
    · rw [hcs, varClients_keys]; exact skip_distinct (by norm_num) ha hc
    · intro c hc
      refine hr _ ?_
      rw [← varClients_rand rs g]
      exact List.mem_map.2 ⟨c, hc, rfl⟩
  -- the streams
  have hspec := fun c hc => clientVar_spec (by omega : nbits ≤ 31) hrc c (hh.draws c hc)
  have hstream : ∀ (sub : List (Bytes × SnipRow)) (F : U64 × SnipRow × SnipRow → SnipRow), (F = (·.2.1) ∨ F = (·.2.2)) →
      sub.map some = cs.map (fun c => (c.out nbits t).map fun o => (c.pk, F o)) →
      ∀ e ∈ sub, e.1.length = pkLength ∧ e.2.vals.length = 2 ∧ PacketOk varCircuit e.2.packet ∧ ∀ y ∈ e.2.packet.all, Fits y := by
    intro sub F hF hs e he
    have : some e ∈ sub.map some := List.mem_map.2 ⟨e, he, rfl⟩
    rw [hs] at this
    obtain ⟨c, hc, h⟩ := List.mem_map.1 this
    obtain ⟨real, r0, r1, w, ho, -, -, -, v0, v1, -, -, -, hpk⟩ := hspec c hc
    rw [ho, Option.map_some, Option.some.injEq] at h
    obtain ⟨a, b⟩ := share_sizes (hh.draws c hc) hpk
    rw [← h]
    rcases hF with rfl | rfl
    · exact ⟨hh.keys c hc, v0, a.1, a.2⟩
    · exact ⟨hh.keys c hc, v1, b.1, b.2⟩
  obtain ⟨bs0, eb0, rd0⟩ := var_stream (hstream _ (·.2.1) (Or.inl rfl) q0)
  obtain ⟨bs1, eb1, rd1⟩ := var_stream (hstream _ (·.2.2) (Or.inr rfl) q1)
  refine ⟨rows, _, _, _, hrows, by rw [varClient, hrows, Option.bind_some, eb0, Option.bind_some, eb1, Option.map_some], fun hp => ?_⟩
  have hp' : (cs.map fun c => c.value nbits ^ 2).sum < intModulus := by
    have e : (rows.map fun r => r.real.toNat ^ 2) = cs.map fun c => c.value nbits ^ 2 := by
      have := congrArg (List.map fun v => v ^ 2) hvals
      simpa [List.map_map, Function.comp_def] using this
    rwa [e] at hp
  have e : (rows.map (·.real)).map (·.toNat) = rows.map fun r => r.real.toNat := by rw [List.map_map]; rfl
  have hrne : rows.map (fun r => r.real.toNat) ≠ [] := by
    intro h0
    have := congrArg List.length hvals
    rw [h0] at this
    simp at this
    exact hcne (List.length_eq_zero_iff.1 this.symm)
  have hp53 : ((rows.map fun r => r.real.toNat).map fun v => v ^ 2).sum < 2 ^ 48 := by
    rw [List.map_map]
    exact lt_trans hp (by decide)
  have hpr : varPrinted fma std (rows.map (·.real)) = _ := varPrinted_eq fma std (vals := rows.map (·.real)) (by
    intro v hv
    obtain ⟨r, hr, rfl⟩ := List.mem_map.1 hv
    have : r.real.toNat ∈ rows.map fun r => r.real.toNat := List.mem_map.2 ⟨r, hr, rfl⟩
    rw [hvals] at this
    obtain ⟨c, -, e⟩ := List.mem_map.1 this
    rw [← e]
    calc c.value nbits < 2 ^ nbits := Nat.mod_lt _ (by positivity)
      _ ≤ 2 ^ 32 := Nat.pow_le_pow_right (by norm_num) (by omega)) (by rw [e]; omega)
  rw [e] at hpr
  have hlr : (rows.map fun r => r.real.toNat).length < 2 ^ 53 := by
    rw [hvals, List.length_map, hlen]; omega
  obtain ⟨a, ha, hnear⟩ := varAnswer_near fma std hrne hlr hp53
  rw [ha] at hpr
  refine ⟨⟨a, hpr, by simpa using hnear⟩, ?_⟩
  intro e0 e1 s0 s1 h hf
  obtain ⟨y, hy⟩ := h.step
  have v0 : VarStream rs.length bs0 (sent0 rows) := ⟨[], by have := rd0 []; rwa [List.append_nil, hlen0] at this⟩
  have v1 : VarStream rs.length bs1 (sent1 rows) := ⟨[], by have := rd1 []; rwa [List.append_nil, hlen1] at this⟩
  have hfit : ∃ e ∈ sent1 rows, varFits nbits e.2 = true := by
    obtain ⟨c, hc⟩ := List.exists_mem_of_ne_nil _ hcne
    obtain ⟨real, r0, r1, w, ho, -, -, f1, -⟩ := hspec c hc
    have : some (c.pk, r1) ∈ (sent1 rows).map some := by
      rw [q1]; exact List.mem_map.2 ⟨c, hc, by rw [ho]; rfl⟩
    obtain ⟨e, he, h⟩ := List.mem_map.1 this
    cases h
    exact ⟨_, he, f1⟩
  obtain ⟨ans, s0', s1', hP, hA, hI⟩ := iteration_pair c (g1 := g1) hg (nbits := nbits) coef (b := .var std (sent0 rows) (sent1 rows)) (e0 := e0) (e1 := e1)
    ⟨bs0, bs1, by rw [h.stream0, hlen0]; exact opens_init _ hn _ _, by rw [hlen0]; exact v0, by rw [h.stream1, hlen1]; exact opens_init _ hn _ _,
      by rw [hlen1]; exact v1⟩ ⟨hb, hfit⟩ h.ord h.draw hy
  refine ⟨s0', s1', ?_, _, hI⟩
  -- the answer of the operation, computed twice
  have hcan := refresh_canon hy.sn0.canon h.draw
  have f0 := snip_fresh hcan 0 (y.refresh e1.draw).pos
  obtain ⟨bs0', bs1', eb0', eb1', hop⟩ := var_honest_run fma std hb hcne (by rw [hlen]; exact hn) hh (o := some a)
    (by
      have hle := sum_le_sum_sq (cs.map (·.value nbits))
      have hsq : ((cs.map (·.value nbits)).map fun v => v ^ 2).sum = (cs.map fun c => c.value nbits ^ 2).sum := by rw [List.map_map]; rfl
      rw [Nat.mod_eq_of_lt (by omega), Nat.mod_eq_of_lt (by omega), ← hvals]; exact ha)
  rw [eb0] at eb0'; cases eb0'
  rw [eb1] at eb1'; cases eb1'
  obtain ⟨u0, u1, hA1⟩ := hop [] [] f0 f0 coef (fun _ _ _ => 0#64) (fun _ _ _ => 0#64) e1.ord (h.ord _)
  obtain ⟨w0, w1, hA2, -⟩ := C40_var_op fma std hb hn v0 v1 hfit f0 f0 coef (fun _ _ _ => 0#64) (fun _ _ _ => 0#64) e1.ord (h.ord _)
  rw [List.append_nil, List.append_nil, hlen] at hA1
  have key := congrArg Prod.fst (hA1.unique hA2).1
  have hA : ans = _ := hA
  dsimp only at hA key
  rw [hf, hlen0, ← key, ← hpr] at hA
  rw [hA] at hP
  exact hP.always

/-- Two submissions of VAR at freshly started servers; the generator and the draws meet the requirements, and the values are 0 and 15. -/
example : ∃ (t : RootTables) (l : List ℕ) (r : SnipRand), RootCalls (2 :: l) t ∧ ValidRand intModulus varCircuit r ∧
    Function.Injective plainPrg.aes ∧ plainPrg.pos + 3 * 2 < 2 ^ 64 ∧ (varClients [r, r] plainPrg).map (·.value 4) = [0, 15] ∧
    ∀ b0 b1 : Bytes, ∃ e0 e1 s0 s1, Ready e0 e1 s0 s1 b0 b1 := by
  obtain ⟨t, ht⟩ := C30_sizes (c := varCircuit) varCircuit_ok.small [] _ .start
  refine ⟨t, [], ⟨1, 2, [3, 4], 5, 6, 7, [8], 9, 10, 11, 12, 13⟩, ht, ?_, plainPrg_injective, by decide, by decide +kernel,
    fun b0 b1 => ⟨_, _, _, _, plain_ready b0 b1⟩⟩
  refine ⟨rfl, rfl, ?_, ?_, ?_, ?_⟩ <;> simp only [IsDraw] <;> decide

end Verif

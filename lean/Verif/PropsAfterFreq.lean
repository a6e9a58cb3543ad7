import Verif.PropsStale

/-!
# What follows a FREQ query that passes its batch check (C75)

Server 0 sends the validity vector in any case (server.cpp:1401), server 1 reads it only after a failed batch check (server.cpp:1290-1299).
The bytes stay in the socket.
-/

namespace Verif

/-! ## Programs that never read from the peer -/

/-- The program never reads from the socket. -/
def Proc.Deaf {β : Type} : Proc β → Prop
  | .ret _ => True
  | .fault => True
  | .send _ k => k.Deaf
  | .recv _ _ => False
  | .otSend _ _ k => k.Deaf
  | .otRecv _ _ k => ∀ ws, (k ws).Deaf

theorem Proc.Deaf.bind {β γ : Type} {p : Proc β} {f : β → Proc γ} (h : p.Deaf) (hf : ∀ b, (f b).Deaf) : (p.bind f).Deaf := by
  induction p with
  | ret a => exact hf a
  | fault => trivial
  | send bs k ih => exact ih h
  | recv n k ih => exact h.elim
  | otSend ch ps k ih => exact ih h
  | otRecv ch cs k ih => exact fun ws => ih ws (h ws)

theorem Step.shift {α β : Type} {s t : Sys α β} (h : Step s t) (hd : s.p1.Deaf) (q : Bytes) :
    Step ⟨s.p0, s.p1, q ++ s.q01, s.q10⟩ ⟨t.p0, t.p1, q ++ t.q01, t.q10⟩ ∧ t.p1.Deaf := by
  cases h with
  | send0 bs k p1 a b => exact ⟨by rw [← List.append_assoc]; exact .send0 .., hd⟩
  | send1 bs p0 k a b => exact ⟨.send1 .., hd⟩
  | recv0 n k p1 a b h => exact ⟨.recv0 _ _ _ _ _ h, hd⟩
  | recv1 n p0 k a b h => exact hd.elim
  | ot01 ch ps cs k0 k1 a b h => exact ⟨.ot01 _ _ _ _ _ _ _ h, hd _⟩
  | ot10 ch ps cs k0 k1 a b h => exact ⟨.ot10 _ _ _ _ _ _ _ h, hd⟩

theorem Steps.shift {α β : Type} {s t : Sys α β} (h : Steps s t) (hd : s.p1.Deaf) (q : Bytes) :
    Steps ⟨s.p0, s.p1, q ++ s.q01, s.q10⟩ ⟨t.p0, t.p1, q ++ t.q01, t.q10⟩ := by
  obtain ⟨n, h⟩ := h
  induction h with
  | refl => exact .refl _
  | head hs _ ih => exact .head (hs.shift hd q).1 (ih (hs.shift hd q).2)

theorem Step.under {α β γ δ : Type} {s t : Sys α β} (h : Step s t) (k0 : α → Proc γ) (k1 : β → Proc δ) :
    Step ⟨s.p0.bind k0, s.p1.bind k1, s.q01, s.q10⟩ ⟨t.p0.bind k0, t.p1.bind k1, t.q01, t.q10⟩ := by
  cases h with
  | send0 bs k p1 a b => exact .send0 ..
  | send1 bs p0 k a b => exact .send1 ..
  | recv0 n k p1 a b h => exact .recv0 _ _ _ _ _ h
  | recv1 n p0 k a b h => exact .recv1 _ _ _ _ _ h
  | ot01 ch ps cs k0 k1 a b h => exact .ot01 _ _ _ _ _ _ _ h
  | ot10 ch ps cs k0 k1 a b h => exact .ot10 _ _ _ _ _ _ _ h

theorem Steps.under {α β γ δ : Type} {s t : Sys α β} (h : Steps s t) (k0 : α → Proc γ) (k1 : β → Proc δ) :
    Steps ⟨s.p0.bind k0, s.p1.bind k1, s.q01, s.q10⟩ ⟨t.p0.bind k0, t.p1.bind k1, t.q01, t.q10⟩ := by
  obtain ⟨n, h⟩ := h
  induction h with
  | refl => exact .refl _
  | head hs _ ih => exact .head (hs.under k0 k1) ih

theorem Pair.runs {α β : Type} {P0 : Proc α} {P1 : Proc β} {a : α} {b : β} (h : Pair P0 P1 a b) (hd : P1.Deaf) (q : Bytes) :
    RunsTo q P0 P1 a b q := by
  intro γ δ k0 k1
  have := ((h.final.shift hd q).under k0 k1)
  simpa only [List.append_nil, Proc.ret_bind'] using this

theorem announce_deaf (ks : List Bytes) : (announce ks).Deaf := by
  unfold announce
  refine Proc.Deaf.bind trivial fun _ => ?_
  induction ks with
  | nil => trivial
  | cons k ks ih => exact ih

theorem ofOption_deaf {α : Type} (o : Option α) : (Proc.ofOption o).Deaf := by cases o <;> trivial

theorem bitSum_deaf (n : ℕ) (s : Bytes) (ord : Map Bool → Map Bool) : (bitSumOp1 n s ord).Deaf := by
  unfold bitSumOp1
  refine (ofOption_deaf _).bind fun m => (announce_deaf _).bind fun _ => ?_
  exact Proc.Deaf.bind (fun _ => trivial) fun _ => trivial

theorem intSum_deaf (nbits n : ℕ) (s : Bytes) (ord : Map U64 → Map U64) : (intSumOp1 nbits n s ord).Deaf := by
  unfold intSumOp1
  refine (ofOption_deaf _).bind fun m => (announce_deaf _).bind fun _ => Proc.Deaf.bind ?_ fun _ => trivial
  unfold intsumReceiver
  split
  · exact fun _ => trivial
  · trivial

/-! ## Sums go on working -/

/-- The batch is a BIT_SUM, an INT_SUM or an unknown message. -/
def Batch.Sum : Batch → Prop
  | .idle _ | .bitSum _ _ | .intSum _ _ => True
  | _ => False

theorem iteration_sum (c : StoreCfg) {g0 g1 : StoreRng} {nbits : ℕ} (coef : ℕ → ℤ) {r : Batch × Env × Env}
    (hr : RoundOk nbits r) (hb : r.1.Sum) {y : Shared} {s0 s1 : Srv} (hs : InStep y s0 s1) (hu : y.uses ≤ 1000000)
    (hst : c.batch * c.nbits / 2 ≤ s0.cor.dabits.length) (q : Bytes) :
    ∃ a, RunsTo q (iteration false c g0 nbits coef r.2.1 s0) (iteration true c g1 nbits coef r.2.2 s1) (a, s0) (r.1.quiet, s1) q ∧
      r.1.Answers nbits coef r.2.1.fma r.2.2.ord y.x y.pos a := by
  obtain ⟨b, e0, e1⟩ := r
  have i0 : iteration false c g0 nbits coef e0 s0 = dispatch0 c g0 nbits coef e0 s0 := by
    unfold iteration
    rw [maybeRefresh_none (by rw [hs.sn0.huses]; exact hu), maybeUpdate_full _ _ (by omega)]
    rfl
  have i1 : iteration true c g1 nbits coef e1 s1 = dispatch1 c g1 nbits coef e1 s1 := by
    unfold iteration
    rw [maybeRefresh_none (by rw [hs.sn1.huses]; exact hu), maybeUpdate_full _ _ (by rw [← hs.cor.len]; omega)]
    rfl
  dsimp only
  rw [i0, i1]
  unfold dispatch0 dispatch1
  obtain ⟨ha, hb', ho, -⟩ := hr
  dsimp only at ha hb' ho hb
  cases b with
  | idle t =>
    obtain ⟨n0, n1, r0, r1, o0, o1⟩ := ha
    obtain ⟨m0, -, q0, k0⟩ := o0.run
    obtain ⟨m1, -, q1, k1⟩ := o1.run
    simp only [Batch.Ok, List.mem_cons, List.not_mem_nil, or_false, not_or] at hb'
    obtain ⟨h1, h2, h3, h4, h5, h6, h7, h8, h9, h10⟩ := hb'
    simp only [q0, q1, Proc.ofOption, Proc.bind, h1, h2, h3, h4, h5, h6, h7, h8, h9, h10, if_false]
    exact ⟨_, RunsTo.ret _ _ _, rfl⟩
  | bitSum a b =>
    obtain ⟨r0, r1, o0, o1⟩ := ha
    obtain ⟨m0, -, q0, k0⟩ := o0.run
    obtain ⟨m1, -, q1, k1⟩ := o1.run
    simp only [q0, q1, Proc.ofOption, Proc.bind, k0, k1, if_true]
    exact ⟨_, ((bitSum_pair a b r0 r1 hb'.1 hb'.2 o1.1 _ (ho _) _ _).runs (bitSum_deaf ..) q).thenRet (fun r => (Answer.word r, s0))
      fun r => (Answer.word r, s1), rfl⟩
  | intSum a b =>
    obtain ⟨r0, r1, o0, o1⟩ := ha
    obtain ⟨m0, -, q0, k0⟩ := o0.run
    obtain ⟨m1, -, q1, k1⟩ := o1.run
    simp only [q0, q1, Proc.ofOption, Proc.bind, k0, k1, if_true]
    exact ⟨_, ((intSum_pair nbits hb'.2.2 a b r0 r1 hb'.1 hb'.2.1 o1.1 _ (ho _) _ _).runs (intSum_deaf ..) q).thenRet
      (fun r => (Answer.word r, s0)) fun r => (Answer.word r, s1), rfl⟩
  | xor => exact hb.elim
  | max => exact hb.elim
  | var => exact hb.elim
  | lin => exact hb.elim
  | freq => exact hb.elim

theorem session_sums (c : StoreCfg) {g0 g1 : StoreRng} {nbits : ℕ} (coef : ℕ → ℤ) (rs : List (Batch × Env × Env))
    (hr : ∀ r ∈ rs, RoundOk nbits r ∧ r.1.Sum) {y : Shared} {s0 s1 : Srv} (hs : InStep y s0 s1) (hu : y.uses ≤ 1000000)
    (hst : c.batch * c.nbits / 2 ≤ s0.cor.dabits.length) (q : Bytes) :
    ∃ as, RunsTo q (session false c g0 nbits coef (rs.map (·.2.1)) s0) (session true c g1 nbits coef (rs.map (·.2.2)) s1)
      (as, s0) (rs.map (·.1.quiet), s1) q ∧ SessionAnswers nbits coef y rs as y := by
  induction rs with
  | nil => exact ⟨[], RunsTo.ret _ _ _, rfl, rfl⟩
  | cons r rs ih =>
    obtain ⟨h, hsum⟩ := hr r List.mem_cons_self
    obtain ⟨a, hP, hA⟩ := iteration_sum c (g0 := g0) (g1 := g1) coef h hsum hs hu hst q
    obtain ⟨as, hQ, hB⟩ := ih (fun r' h' => hr r' (List.mem_cons_of_mem _ h'))
    have hy : y.refresh r.2.2.draw = y := by unfold Shared.refresh; rw [if_neg (by omega)]
    have hy' : y.after nbits r.1 = y := by
      obtain ⟨b, e0, e1⟩ := r
      cases b <;> first | exact hsum.elim | simp [Shared.after, Batch.checks]
    exact ⟨a :: as, hP.bind (hQ.bind (RunsTo.ret _ _ _)), a, as, rfl, by rw [hy]; exact hA, by rw [hy, hy']; exact hB⟩

/-- One FREQ batch whose weights add up, at the level of an iteration. -/
theorem iteration_freq (c : StoreCfg) {g0 g1 : StoreRng} (hg : GoodRng intModulus g0) {nbits : ℕ} (coef : ℕ → ℤ)
    {a b : List (Bytes × List Bool)} {e0 e1 : Env} {y : Shared} {s0 s1 : Srv} (hs : InStep y s0 s1) (hu : y.uses ≤ 1000000)
    (hst : c.batch * c.nbits / 2 + (keysOf b).card * 2 ^ nbits ≤ s0.cor.dabits.length)
    (he : (Batch.freq a b).Arrives nbits e0.stream e1.stream) (hn : nbits ≤ 30) (hcap : (keysOf b).card ≤ a.length)
    (hsz : (keysOf b).card * 2 ^ nbits < 2 ^ 32) (hW : totalWeight (2 ^ nbits) a b = a.length) (ho : ∀ α : Type, IsOrder (e1.ord (α := α))) :
    ∃ s0' s1', RunsTo [] (iteration false c g0 nbits coef e0 s0) (iteration true c g1 nbits coef e1 s1)
        (.hist (verdict (keysOf b).card a.length (histogram (2 ^ nbits) (keysOf b) (freqVec (2 ^ nbits) a b))), s0')
        (.hist .noAns, s1') (encBools (List.replicate (keysOf b).card true)) ∧
      InStep y s0' s1' ∧ c.batch * c.nbits / 2 ≤ s0'.cor.dabits.length ∧
      (∃ d, s0'.cor.dabits = s0.cor.dabits.drop ((keysOf b).card * 2 ^ nbits) ++ d) ∧
      ∃ d, s1'.cor.dabits = s1.cor.dabits.drop ((keysOf b).card * 2 ^ nbits) ++ d := by
  obtain ⟨r0, r1, o0, v0, o1, v1⟩ := he
  obtain ⟨m0, -, q0, k0⟩ := o0.run
  obtain ⟨m1, -, q1, k1⟩ := o1.run
  obtain ⟨st0', st1', hda, hP, -⟩ := freqOp_run c (g1 := g1) hg hn o0.1 v0 v1 hcap hsz hs.cor e1.ord (ho _)
  have hP : RunsTo [] _ _ _ _ _ := hP hW
  obtain ⟨d0, d1, ed0, ed1, -, hk⟩ := hda.new
  refine ⟨⟨s0.snip, st0'⟩, ⟨s1.snip, st1'⟩, ?_, ⟨hs.sn0, hs.sn1, hda.ok⟩, ?_, ⟨d0, ?_⟩, d1, ?_⟩
  · have i0 : iteration false c g0 nbits coef e0 s0 = (freqOp0 c g0 nbits a.length r0 s0.cor).bind fun r => .ret (.hist r.1, ⟨s0.snip, r.2⟩) := by
      unfold iteration
      rw [maybeRefresh_none (by rw [hs.sn0.huses]; exact hu), maybeUpdate_full _ _ (by omega)]
      simp only [Proc.ret_bind', dispatch0, q0, Proc.ofOption, k0]
      rfl
    have i1 : iteration true c g1 nbits coef e1 s1 = (freqOp1 c g1 nbits b.length r1 e1.ord s1.cor).bind fun r => .ret (.hist r.1, ⟨s1.snip, r.2⟩) := by
      unfold iteration
      rw [maybeRefresh_none (by rw [hs.sn1.huses]; exact hu), maybeUpdate_full _ _ (by rw [← hs.cor.len]; omega)]
      simp only [Proc.ret_bind', dispatch1, q1, Proc.ofOption, k1]
      rfl
    rw [i0, i1]
    exact hP.thenRet (fun r => (Answer.hist r.1, (⟨s0.snip, r.2⟩ : Srv))) fun r => (Answer.hist r.1, (⟨s1.snip, r.2⟩ : Srv))
  · show _ ≤ st0'.dabits.length
    rw [ed0, List.length_drop, List.length_append]; omega
  · show st0'.dabits = _
    rw [ed0, List.drop_append_of_le_length (by omega)]
  · show st1'.dabits = _
    rw [ed1, List.drop_append_of_le_length (by rw [← hs.cor.len]; omega)]

/-- C75, the part that holds. From servers in step, a FREQ batch whose weights add up to the number of submissions, followed by any number
of BIT_SUM and INT_SUM queries and unknown messages: in every schedule every answer is the one its operation has to give. The validity vector
of the FREQ query is still unread at the end. (`hst`: the store of daBits is not refilled after the FREQ query.) -/
theorem C75_sums_partial (c : StoreCfg) {g0 g1 : StoreRng} (hg : GoodRng intModulus g0) {nbits : ℕ} (coef : ℕ → ℤ)
    {a b : List (Bytes × List Bool)} {e0 e1 : Env} (rs : List (Batch × Env × Env)) (hr : ∀ r ∈ rs, RoundOk nbits r ∧ r.1.Sum)
    {y : Shared} {s0 s1 : Srv} (hs : InStep y s0 s1) (hu : y.uses ≤ 1000000)
    (hst : c.batch * c.nbits / 2 + (keysOf b).card * 2 ^ nbits ≤ s0.cor.dabits.length)
    (he : (Batch.freq a b).Arrives nbits e0.stream e1.stream) (hn : nbits ≤ 30) (hcap : (keysOf b).card ≤ a.length)
    (hsz : (keysOf b).card * 2 ^ nbits < 2 ^ 32) (hW : totalWeight (2 ^ nbits) a b = a.length) (ho : ∀ α : Type, IsOrder (e1.ord (α := α))) :
    ∃ as s0' s1', Ends (session false c g0 nbits coef (e0 :: rs.map (·.2.1)) s0) (session true c g1 nbits coef (e1 :: rs.map (·.2.2)) s1)
        (.hist (verdict (keysOf b).card a.length (histogram (2 ^ nbits) (keysOf b) (freqVec (2 ^ nbits) a b))) :: as, s0')
        (.hist .noAns :: rs.map (·.1.quiet), s1') (encBools (List.replicate (keysOf b).card true)) [] ∧
      SessionAnswers nbits coef y rs as y ∧ InStep y s0' s1' := by
  obtain ⟨s0', s1', hF, hI, hst', -⟩ := iteration_freq c (g1 := g1) hg coef hs hu hst he hn hcap hsz hW ho
  obtain ⟨as, hR, hA⟩ := session_sums c (g0 := g0) (g1 := g1) coef rs hr hI hu hst' (encBools (List.replicate (keysOf b).card true))
  refine ⟨as, s0', s1', RunsTo.ends ?_, hA, hI⟩
  unfold session
  refine hF.bind ?_
  exact hR.bind (RunsTo.ret _ _ _)

/-! ## MAX and MIN take the stale vector -/

/-- The aggregate of column `j` when server 1 takes all its submissions for valid. -/
def staleCol (subs0 subs1 : List (Bytes × List U64)) (j : ℕ) : U64 :=
  xorOver (bothKeys (fun _ => true) subs0 subs1) (fun k => ((firstOf (fun _ => true) subs0 k).getD []).getD j 0#64) ^^^
    xorOver (subs1.map (·.1)).toFinset fun k => ((firstOf (fun _ => true) subs1 k).getD []).getD j 0#64

theorem rows_keys {α : Type} {subs : List (Bytes × α)} {o : Map α} (hp : o.Perm (admit (fun _ => true) subs [])) :
    o.keys.toFinset = (subs.map (·.1)).toFinset := by
  ext k
  rw [List.mem_toFinset, List.mem_toFinset]
  have h1 : k ∈ o.keys ↔ (firstOf (fun _ => true) subs k).isSome = true := by
    rw [← C34_first_admissible, lookup_isSome_iff]
    exact (hp.map _).mem_iff
  rw [h1]
  unfold firstOf
  rw [Option.isSome_map, List.find?_isSome, List.mem_map]
  constructor
  · rintro ⟨e, he, h⟩
    exact ⟨e, he, by simpa using h⟩
  · rintro ⟨e, he, rfl⟩
    exact ⟨e, he, by simp⟩

theorem max_stale (isMax : Bool) (B : ℕ) (subs0 subs1 : List (Bytes × List U64)) (rest0 rest1 : Bytes) (hk0 : Keyed subs0)
    (hk1 : Keyed subs1) (hr0 : RowsOk B subs0) (hr1 : RowsOk B subs1) (hB : B + 1 < 2 ^ 32) (hs0 : subs0.length * (B + 1) < 2 ^ 32)
    (hs1 : subs1.length * (B + 1) < 2 ^ 32) (ord : Map (List U64) → Map (List U64)) (ho : IsOrder ord)
    (hc : ¬ 2 * (bothKeys (fun _ => true) subs0 subs1).card < subs0.length) (j : ℕ) (hj : j ≤ B)
    (hne : staleCol subs0 subs1 j ≠ 0#64) (hz : ∀ i, j < i → i ≤ B → staleCol subs0 subs1 i = 0#64) :
    ∃ q, q.length = ((subs1.map (·.1)).toFinset.card + 7) / 8 ∧
    RunsTo (encBools (List.replicate (subs1.map (·.1)).toFinset.card true)) (maxOpOp0 isMax B subs0.length (encMaxShares subs0 ++ rest0))
      (maxOpOp1 B subs1.length (encMaxShares subs1 ++ rest1) ord) (.ans (if isMax then j else B - j)) .noAns q := by
  unfold maxOpOp0 maxOpOp1
  rw [maxIntake_stream B subs0 hk0 hr0 hB hs0, maxIntake_stream B subs1 hk1 hr1 hB hs1]
  simp only [Proc.ofOption, Proc.ret_bind']
  have hp := ho (admit (fun _ => true) subs1 [])
  generalize ord (admit (fun _ => true) subs1 []) = o at hp
  have hol := order_length hp
  have hn := order_nodup hp
  have hB' : subs1.length ≤ subs1.length * (B + 1) := Nat.le_mul_of_pos_right _ (by omega)
  have hcard : (subs1.map (·.1)).toFinset.card = o.keys.length := by rw [← rows_keys hp, List.toFinset_card_of_nodup hn]
  have hkl : o.keys.length = o.length := by simp [Map.keys]
  have hboth : ∀ k ∈ o.keys, (List.lookup k (admit (fun _ => true) subs1 [])).isSome = true := by
    intro k hk
    rw [lookup_isSome_iff]
    exact (hp.map _).mem_iff.1 hk
  have hall : matched (admit (fun _ => true) subs1 []) o.keys = List.replicate o.keys.length true := by
    rw [matched, List.eq_replicate_iff]
    refine ⟨by simp, fun v hv => ?_⟩
    obtain ⟨k, hk, rfl⟩ := List.mem_map.1 hv
    exact hboth k hk
  have h0 := maxFold_getD B (admit (fun _ => true) subs0 []) (admit (fun _ => true) subs0 []) o.keys hn
    (fun k _ hk => by rw [C34_first_admissible] at hk ⊢; exact order_row hr0 hk)
  have h1 := maxFold_getD B (admit (fun _ => true) subs1 []) (admit (fun _ => true) subs1 []) o.keys hn
    (fun k hk _ => by have := hboth k hk; rw [C34_first_admissible] at this ⊢; exact order_row hr1 this)
  have hcol : ∀ j, (maxFold B (admit (fun _ => true) subs0 []) o.keys (matched (admit (fun _ => true) subs0 []) o.keys)).getD j 0#64 ^^^
      (maxFold B (admit (fun _ => true) subs1 []) o.keys (matched (admit (fun _ => true) subs1 []) o.keys)).getD j 0#64 = staleCol subs0 subs1 j := by
    intro j
    rw [h0.2, h1.2, bothKeys_eq _ _ _ _ hp, Finset.filter_true_of_mem (fun k hk => hboth k (List.mem_toFinset.1 hk)), rows_keys hp]
    simp only [C34_first_admissible]
    rfl
  refine ⟨encBools (matched (admit (fun _ => true) subs0 []) o.keys), by simp [encBools, matched, hcard], ?_⟩
  unfold maxOp0 maxOp1
  refine (listen_runs o.keys (order_keyed hp hk1) (by omega) _).bind ?_
  intro γ δ k0 k1
  rw [hcard, ← hall]
  simp only [Proc.bind_assoc]
  refine .head (.send0 ..) ?_
  simp only [Proc.ret_bind']
  have hrd := reads_bools (matched (admit (fun _ => true) subs1 []) o.keys) (encBools (matched (admit (fun _ => true) subs0 []) o.keys))
  rw [matched_length, hkl] at hrd
  refine (steps_read1 _ _ _ _ hrd _ _ _).trans ?_
  refine .head (.send1 ..) ?_
  rw [List.nil_append]
  have hw := reads_words (maxFold B (admit (fun _ => true) subs1 []) o.keys (matched (admit (fun _ => true) subs1 []) o.keys)) []
  rw [h1.1, List.append_nil] at hw
  refine (steps_read0 (rdWords (B + 1)) _ _ _ hw _ _ _).trans ?_
  rw [count_order _ _ _ _ hp, if_neg (fun h' => hc ((C48_threshold _ _).1 h')), scanDown_some hj (fun he => hne (by rw [← hcol, (xor_zero_iff _ _).2 he]))
    (fun i h1 h2 => (xor_zero_iff _ _).1 (by rw [hcol, hz i h1 h2]))]
  exact .refl _

/-- C75 is false for MAX and MIN. After a FREQ batch whose weights add up, with as many keys at server 1: the answer is the highest column of
`staleCol`, which folds in all of server 1's submissions, instead of the highest column over the keys held by both. -/
theorem C75_false_max (c : StoreCfg) {g0 g1 : StoreRng} (hg : GoodRng intModulus g0) {nbits : ℕ} (coef : ℕ → ℤ)
    {a b : List (Bytes × List Bool)} {isMax : Bool} {B : ℕ} {a' b' : List (Bytes × List U64)} {e0 e1 f0 f1 : Env} {y : Shared} {s0 s1 : Srv}
    (hs : InStep y s0 s1) (hu : y.uses ≤ 1000000) (hst : c.batch * c.nbits / 2 + (keysOf b).card * 2 ^ nbits ≤ s0.cor.dabits.length)
    (he : (Batch.freq a b).Arrives nbits e0.stream e1.stream) (hn : nbits ≤ 30) (hcap : (keysOf b).card ≤ a.length)
    (hsz : (keysOf b).card * 2 ^ nbits < 2 ^ 32) (hW : totalWeight (2 ^ nbits) a b = a.length) (ho : ∀ α : Type, IsOrder (e1.ord (α := α)))
    (hf : (Batch.max isMax B a' b').Arrives nbits f0.stream f1.stream) (hok : (Batch.max isMax B a' b').Ok nbits)
    (hrows : (b'.map (·.1)).toFinset.card = (keysOf b).card) (ho' : ∀ α : Type, IsOrder (f1.ord (α := α)))
    (hc : ¬ 2 * (bothKeys (fun _ => true) a' b').card < a'.length) {j : ℕ} (hj : j ≤ B)
    (hne : staleCol a' b' j ≠ 0#64) (hz : ∀ i, j < i → i ≤ B → staleCol a' b' i = 0#64) :
    ∃ s0' s1' q, q.length = ((keysOf b).card + 7) / 8 ∧
      Ends (session false c g0 nbits coef [e0, f0] s0) (session true c g1 nbits coef [e1, f1] s1)
        ([.hist (verdict (keysOf b).card a.length (histogram (2 ^ nbits) (keysOf b) (freqVec (2 ^ nbits) a b))),
          .nat (.ans (if isMax then j else B - j))], s0') ([.hist .noAns, .nat .noAns], s1') q [] := by
  obtain ⟨s0', s1', hF, hI, hst', -⟩ := iteration_freq c (g1 := g1) hg coef hs hu hst he hn hcap hsz hW ho
  obtain ⟨t0, t1, p0, p1⟩ := hf
  obtain ⟨n0, B0, w0, l0⟩ := p0.run
  obtain ⟨n1, B1, w1, l1⟩ := p1.run
  obtain ⟨hk0, hk1, hr0, hr1, hB, hs0, hs1, -⟩ := hok
  obtain ⟨q, hq, hX⟩ := max_stale isMax B a' b' t0 t1 hk0 hk1 hr0 hr1 hB hs0 hs1 f1.ord (ho' _) hc j hj hne hz
  rw [hrows] at hq hX
  refine ⟨s0', s1', q, hq, RunsTo.ends ?_⟩
  have b0 := B0 B rfl
  have b1 := B1 B rfl
  have j0 : iteration false c g0 nbits coef f0 s0' =
      (maxOpOp0 isMax B a'.length (encMaxShares a' ++ t0)).bind fun r => .ret (.nat r, s0') := by
    unfold iteration
    rw [maybeRefresh_none (by rw [hI.sn0.huses]; exact hu), maybeUpdate_full _ _ hst']
    cases isMax <;> simp only [Proc.ret_bind', dispatch0, w0, Proc.ofOption, l0, b0] <;> rfl
  have j1 : iteration true c g1 nbits coef f1 s1' =
      (maxOpOp1 B b'.length (encMaxShares b' ++ t1) f1.ord).bind fun r => .ret (.nat r, s1') := by
    unfold iteration
    rw [maybeRefresh_none (by rw [hI.sn1.huses]; exact hu), maybeUpdate_full _ _ (by rw [← hI.cor.len]; exact hst')]
    cases isMax <;> simp only [Proc.ret_bind', dispatch1, w1, Proc.ofOption, l1, b1] <;> rfl
  unfold session session session
  refine hF.bind ?_
  dsimp only
  rw [j0, j1]
  have hY := (hX.thenRet (fun r => (Answer.nat r, s0')) fun r => (Answer.nat r, s1')).thenRet (fun r => ([r.1], r.2)) fun r => ([r.1], r.2)
  exact hY.thenRet (fun r => (Answer.hist (verdict (keysOf b).card a.length (histogram (2 ^ nbits) (keysOf b) (freqVec (2 ^ nbits) a b))) :: r.1, r.2))
    fun r => (Answer.hist Ret.noAns :: r.1, r.2)

/-! ## A second FREQ query -/

/-- Server 1 does something undefined: in every schedule, whatever has happened so far, it has not come to a result and there is a continuation
in which it has reached undefined behaviour. -/
def Faults1 {α β : Type} (P0 : Proc α) (P1 : Proc β) : Prop :=
  ∀ u, Steps ⟨P0, P1, [], []⟩ u → (∀ b, u.p1 ≠ .ret b) ∧ ∃ w, Steps u w ∧ w.p1 = .fault

theorem Faults1.ofSteps {α β : Type} {P0 : Proc α} {P1 : Proc β} {t : Sys α β} (h : Steps ⟨P0, P1, [], []⟩ t) (ht : t.p1 = .fault) :
    Faults1 P0 P1 := by
  intro u hu
  have h0 : Faults0 P1 P0 := Faults0.ofSteps (t := t.swap) h.swap ht
  obtain ⟨h1, w, h2, h3⟩ := h0 u.swap hu.swap
  exact ⟨h1, w.swap, h2.swap, h3⟩

theorem getDaBits_full {p : ℕ} {c : StoreCfg} {g : StoreRng} {sv : Bool} : ∀ {n : ℕ} {s : Store}, n ≤ s.dabits.length →
    getDaBits p c g sv n s = .ret (s.dabits.take n, ⟨s.dabits.drop n, s.triples, s.calls⟩)
  | 0, s, _ => by simp [getDaBits]
  | n + 1, ⟨[], tr, k⟩, h => by simp at h
  | n + 1, ⟨t :: ts, tr, k⟩, h => by
    have h' : n ≤ (⟨ts, tr, k⟩ : Store).dabits.length := by simpa using h
    have hc : checkDaBits p c g sv 1 ⟨t :: ts, tr, k⟩ = .ret ⟨t :: ts, tr, k⟩ := by unfold checkDaBits; rw [if_neg (by simp)]
    rw [getDaBits, getDaBit, hc]
    simp only [Proc.ret_bind']
    rw [getDaBits_full h']
    rfl

theorem b2aSingle_full {p : ℕ} {c : StoreCfg} {g : StoreRng} {sv : Bool} {x : List Bool} {s : Store} (h : x.length ≤ s.dabits.length) :
    b2aSingle p c g sv x s = (exch (encBools (maskBits x ((s.dabits.take x.length).map (·.b2)))) (rdBools x.length)).bind fun v =>
      .ret (List.zipWith (convBit p sv) ((s.dabits.take x.length).map (·.bp)) (maskBits (maskBits x ((s.dabits.take x.length).map (·.b2))) v),
        ⟨s.dabits.drop x.length, s.triples, s.calls⟩) := by
  unfold b2aSingle checkDaBits
  rw [if_neg (by omega), Proc.ret_bind', getDaBits_full h]
  rfl

theorem steps_recvKeysInto {γ δ : Type} (cap : ℕ) : ∀ (ks : List Bytes) (i : ℕ) (k0 : List Bytes → Proc γ) (P1 : Proc δ) (q : Bytes),
    (∀ k ∈ ks, k.length = pkLength) → i + ks.length ≤ cap →
    Steps ⟨(recvKeysInto cap i ks.length).bind k0, P1, q, ks.flatten⟩ ⟨k0 ks, P1, q, []⟩
  | [], _, _, _, _, _, _ => .refl _
  | k :: ks, i, k0, P1, q, hk, hc => by
    rw [List.length_cons] at hc
    rw [List.length_cons, recvKeysInto, Proc.bind_assoc, List.flatten_cons]
    have hr : (Rd.get pkLength .ret).run (k ++ ks.flatten) = some (k, ks.flatten) :=
      Reads.getRet (k := id) (hk k (List.mem_cons_self ..)) _
    refine (steps_read0 _ _ _ _ hr _ _ _).trans ?_
    rw [if_pos (by omega), Proc.bind_assoc]
    exact steps_recvKeysInto cap ks (i + 1) (fun ks => k0 (k :: ks)) P1 q (fun k' h' => hk k' (List.mem_cons_of_mem _ h')) (by omega)

theorem steps_listenInto {γ δ : Type} (cap : ℕ) (ks : List Bytes) (hk : ∀ k ∈ ks, k.length = pkLength) (hl : ks.length < 2 ^ 32) (hc : ks.length ≤ cap)
    (k0 : List Bytes → Proc γ) (k1 : Unit → Proc δ) (q : Bytes) :
    Steps ⟨rdSize.toProc.bind fun n => (recvKeysInto cap 0 n.toNat).bind k0, (announce ks).bind k1, q, []⟩ ⟨k0 ks, k1 (), q, []⟩ := by
  have e : (BitVec.ofNat 64 ((BitVec.ofNat 64 ks.length : U64).toNat % 2 ^ 32) : U64).toNat = ks.length := by
    rw [BitVec.toNat_ofNat, BitVec.toNat_ofNat]
    omega
  refine (steps_announce ks _ k1 q).trans ?_
  refine (steps_read0 rdSize _ ks.flatten _ (reads_size (BitVec.ofNat 64 ks.length) ks.flatten) _ _ _).trans ?_
  rw [e]
  exact steps_recvKeysInto cap ks 0 k0 _ q hk (by omega)

/-- The bits server 0 sends in a FREQ query: its rows in server 1's order (zeros for keys it does not know), masked. -/
def freqMasked (w : ℕ) (subs0 : List (Bytes × List Bool)) (ks : List Bytes) (masks : List Bool) : List Bool :=
  List.zipWith (fun x t => x ^^ t) (ks.flatMap fun k => (firstOf anyRow subs0 k).getD (List.replicate w false)) masks

theorem toFault1 {α β : Type} {s s' : Sys α β} (h : Steps s s') (h' : ∃ t, Steps s' t ∧ t.p1 = .fault) : ∃ t, Steps s t ∧ t.p1 = .fault :=
  let ⟨t, h1, h2⟩ := h'
  ⟨t, h.trans h1, h2⟩

theorem freq_stale (c : StoreCfg) {g0 g1 : StoreRng} {w total0 : ℕ} (q : Bytes)
    {subs0 subs1 : List (Bytes × List Bool)} (hk1 : Keyed subs1) (hw0 : ∀ e ∈ subs0, e.2.length = w) (hw1 : ∀ e ∈ subs1, e.2.length = w)
    (hcap : (keysOf subs1).card ≤ total0) (ht : total0 < 2 ^ 32) (hsz : (keysOf subs1).card * w < 2 ^ 32) {st0 st1 : Store}
    (hd0 : (keysOf subs1).card * w ≤ st0.dabits.length) (hd1 : (keysOf subs1).card * w ≤ st1.dabits.length)
    {ord : Map (List Bool)} (hp : ord.Perm (admit anyRow subs1 [])) {x : Byte} {rest : Bytes}
    (hx : (q ++ encBools (freqMasked w subs0 ord.keys ((st0.dabits.take ((keysOf subs1).card * w)).map (·.b2)))).drop
      (((keysOf subs1).card * w + 7) / 8) = x :: rest) (h0 : x ≠ 0#8) (h1 : x ≠ 1#8)
    {γ δ : Type} (k0 : Ret (List ℤ) × Store → Proc γ) (k1 : Ret (List ℤ) × Store → Proc δ) :
    ∃ t : Sys γ δ, Steps ⟨(freq0 c g0 w total0 (admit anyRow subs0 []) st0).bind k0, (freq1 c g1 w ord st1).bind k1, q, []⟩ t ∧ t.p1 = .fault := by
  have hn : ord.keys.Nodup := order_nodup hp
  have hcard : (keysOf subs1).card = ord.keys.length := by rw [← order_keys hp, List.toFinset_card_of_nodup hn]
  rw [hcard] at hcap hsz hd0 hd1 hx
  set m := admit anyRow subs0 [] with hm
  set ks := ord.keys with hks
  have hkk : ord.map (·.1) = ks := rfl
  have hkyd := order_keyed hp hk1
  rw [← hks] at hkyd
  have hA : ks.map (freqRow0 w m) = ks.map fun k => (firstOf anyRow subs0 k).getD (List.replicate w false) :=
    List.map_congr_left fun k _ => by rw [freqRow0, hm, C34_first_admissible]
  have hB : ord.map (·.2) = ks.map fun k => (firstOf anyRow subs1 k).getD (List.replicate w false) := by
    rw [hks, Map.keys, List.map_map]
    refine List.map_congr_left fun e he => ?_
    simp only [Function.comp_apply, order_lookup hp he, Option.getD_some]
  have hflat : ∀ f : Bytes → List Bool, (∀ k, (f k).length = w) → ((ks.map f).flatten).length = ks.length * w := by
    intro f hf
    rw [List.length_flatten, List.map_map, show (List.length ∘ f) = fun _ => w from funext hf, List.map_const', List.sum_replicate, smul_eq_mul]
  have lA := hflat _ (firstOf_length hw0)
  have lB := hflat _ (firstOf_length hw1)
  clear_value ks
  unfold freq0 freq1
  simp only [Proc.bind_assoc]
  rw [hkk]
  have hvl : (maskBits (ks.map fun k => (firstOf anyRow subs0 k).getD (List.replicate w false)).flatten
      ((st0.dabits.take (ks.length * w)).map (·.b2))).length = ks.length * w := by
    rw [maskBits, List.length_zipWith, lA, List.length_map, List.length_take]
    omega
  refine toFault1 (steps_listenInto total0 ks hkyd (by omega) hcap _ _ q) ?_
  rw [hA, hB]
  unfold freqConvert
  rw [if_pos (by rw [lA]; exact hsz), if_pos (by rw [lB]; exact hsz), b2aSingle_full (by rw [lA]; exact hd0), b2aSingle_full (by rw [lB]; exact hd1), lA, lB]
  unfold exch
  simp only [Proc.bind_assoc]
  have hx' : (q ++ encBools (maskBits (ks.map fun k => (firstOf anyRow subs0 k).getD (List.replicate w false)).flatten
      ((st0.dabits.take (ks.length * w)).map (·.b2)))).drop ((ks.length * w + 7) / 8) = x :: rest := by
    rw [← hx, freqMasked, List.flatMap_def]
    rfl
  have hlen : (ks.length * w + 7) / 8 ≤ (q ++ encBools (maskBits (ks.map fun k => (firstOf anyRow subs0 k).getD (List.replicate w false)).flatten
      ((st0.dabits.take (ks.length * w)).map (·.b2)))).length := by
    rw [List.length_append, encBools, List.length_map, List.length_range, hvl]
    omega
  refine toFault1 (.head (.send0 ..) (.head (.send1 ..) (.one (.recv1 _ _ _ _ _ hlen)))) ?_
  rw [hx']
  simp only [Rd.toProc, Proc.ret_bind']
  rw [encFmpz_of_fits (fits_canon (modSum_canon _))]
  refine toFault1 (.head (.send1 ..) (.head (.send1 ..) (.one (.recv1 1 _ _ _ _ (by simp))))) ?_
  refine ⟨_, .refl _, ?_⟩
  have hb : boolOfByte x = .bad := by unfold boolOfByte; rw [if_neg h0, if_neg h1]
  show Proc.bind (boolOfByte x).toProc _ = .fault
  rw [hb]
  rfl

/-- The byte server 1 takes for the batch verdict of the second query: the one after as many bytes as the second query has masked bits, counted
from the beginning of the stale vector. `n` keys in the first query, `N` bits in the second one. -/
def staleVerdict (n N : ℕ) (masked : List Bool) : List Byte := (encBools (List.replicate n true) ++ encBools masked).drop ((N + 7) / 8)

/-- C75 is false for FREQ after FREQ. From servers in step with enough daBits, a FREQ batch whose weights add up, then any FREQ batch: if the byte
server 1 takes for the batch verdict is neither 0 nor 1, its `bool` is undefined, in every schedule. -/
theorem C75_false_freq_twice (c : StoreCfg) {g0 g1 : StoreRng} (hg : GoodRng intModulus g0) {nbits : ℕ} (coef : ℕ → ℤ)
    {a b a' b' : List (Bytes × List Bool)} {e0 e1 f0 f1 : Env} {y : Shared} {s0 s1 : Srv} (hs : InStep y s0 s1) (hu : y.uses ≤ 1000000)
    (hst : c.batch * c.nbits / 2 + (keysOf b).card * 2 ^ nbits ≤ s0.cor.dabits.length)
    (hst' : (keysOf b).card * 2 ^ nbits + (keysOf b').card * 2 ^ nbits ≤ s0.cor.dabits.length)
    (he : (Batch.freq a b).Arrives nbits e0.stream e1.stream) (hn : nbits ≤ 30) (hcap : (keysOf b).card ≤ a.length)
    (hsz : (keysOf b).card * 2 ^ nbits < 2 ^ 32) (hW : totalWeight (2 ^ nbits) a b = a.length) (ho : ∀ α : Type, IsOrder (e1.ord (α := α)))
    (hf : (Batch.freq a' b').Arrives nbits f0.stream f1.stream) (hcap' : (keysOf b').card ≤ a'.length)
    (hsz' : (keysOf b').card * 2 ^ nbits < 2 ^ 32) (ho' : ∀ α : Type, IsOrder (f1.ord (α := α))) {x : Byte} {rest : Bytes}
    (hx : staleVerdict (keysOf b).card ((keysOf b').card * 2 ^ nbits) (freqMasked (2 ^ nbits) a' (f1.ord (admit anyRow b' [])).keys
      (((s0.cor.dabits.drop ((keysOf b).card * 2 ^ nbits)).take ((keysOf b').card * 2 ^ nbits)).map (·.b2))) = x :: rest)
    (h0 : x ≠ 0#8) (h1 : x ≠ 1#8) :
    Faults1 (session false c g0 nbits coef [e0, f0] s0) (session true c g1 nbits coef [e1, f1] s1) := by
  obtain ⟨s0', s1', hF, hI, hcap0, ⟨d, hd⟩, -⟩ := iteration_freq c (g1 := g1) hg coef hs hu hst he hn hcap hsz hW ho
  obtain ⟨r0, r1, o0, v0, o1, v1⟩ := hf
  obtain ⟨m0, -, q0, k0⟩ := o0.run
  obtain ⟨m1, -, q1, k1⟩ := o1.run
  have i0 : iteration false c g0 nbits coef f0 s0' = (freq0 c g0 (2 ^ nbits) a'.length (admit anyRow a' []) s0'.cor).bind fun r =>
      .ret (.hist r.1, ⟨s0'.snip, r.2⟩) := by
    unfold iteration
    rw [maybeRefresh_none (by rw [hI.sn0.huses]; exact hu), maybeUpdate_full _ _ (by omega)]
    simp only [Proc.ret_bind', dispatch0, q0, Proc.ofOption, k0]
    have e : freqOp0 c g0 nbits a'.length r0 s0'.cor = freq0 c g0 (2 ^ nbits) a'.length (admit anyRow a' []) s0'.cor := by
      obtain ⟨r, e⟩ := v0
      unfold freqOp0 freqWidth freqIntake
      rw [if_pos hn]
      show Proc.bind (Proc.ofOption (Option.map _ (((rdFreqShare (2 ^ nbits)).rep a'.length).run r0))) _ = _
      rw [e]; rfl
    rw [← e]
    rfl
  have i1 : iteration true c g1 nbits coef f1 s1' = (freq1 c g1 (2 ^ nbits) (f1.ord (admit anyRow b' [])) s1'.cor).bind fun r =>
      .ret (.hist r.1, ⟨s1'.snip, r.2⟩) := by
    unfold iteration
    rw [maybeRefresh_none (by rw [hI.sn1.huses]; exact hu), maybeUpdate_full _ _ (by rw [← hI.cor.len]; omega)]
    simp only [Proc.ret_bind', dispatch1, q1, Proc.ofOption, k1]
    have e : freqOp1 c g1 nbits b'.length r1 f1.ord s1'.cor = freq1 c g1 (2 ^ nbits) (f1.ord (admit anyRow b' [])) s1'.cor := by
      obtain ⟨r, e⟩ := v1
      unfold freqOp1 freqWidth freqIntake
      rw [if_pos hn]
      show Proc.bind (Proc.ofOption (Option.map _ (((rdFreqShare (2 ^ nbits)).rep b'.length).run r1))) _ = _
      rw [e]; rfl
    rw [← e]
    rfl
  obtain ⟨-, -, w0⟩ := v0.spec
  obtain ⟨-, ky1, w1⟩ := v1.spec
  have hlen : (keysOf b').card * 2 ^ nbits ≤ (s0.cor.dabits.drop ((keysOf b).card * 2 ^ nbits)).length := by
    rw [List.length_drop]; omega
  have hlen' : (keysOf b').card * 2 ^ nbits ≤ s0'.cor.dabits.length := by rw [hd, List.length_append]; omega
  have htake : s0'.cor.dabits.take ((keysOf b').card * 2 ^ nbits) =
      (s0.cor.dabits.drop ((keysOf b).card * 2 ^ nbits)).take ((keysOf b').card * 2 ^ nbits) := by
    rw [hd, List.take_append_of_le_length hlen]
  rw [← htake] at hx
  obtain ⟨t, ht, hfault⟩ := freq_stale c (g0 := g0) (g1 := g1) (encBools (List.replicate (keysOf b).card true)) ky1 w0 w1 hcap' o0.1 hsz' hlen'
    (by rw [← hI.cor.len]; exact hlen') (ho' _ _) hx h0 h1
    (fun r => (Proc.ret (Answer.hist r.1, (⟨s0'.snip, r.2⟩ : Srv))).bind fun r => (session false c g0 nbits coef [] r.2).bind fun q =>
      (Proc.ret (r.1 :: q.1, q.2)).bind fun q =>
      .ret (Answer.hist (verdict (keysOf b).card a.length (histogram (2 ^ nbits) (keysOf b) (freqVec (2 ^ nbits) a b))) :: q.1, q.2))
    (fun r => (Proc.ret (Answer.hist r.1, (⟨s1'.snip, r.2⟩ : Srv))).bind fun r => (session true c g1 nbits coef [] r.2).bind fun q =>
      (Proc.ret (r.1 :: q.1, q.2)).bind fun q => .ret (Answer.hist Ret.noAns :: q.1, q.2))
  refine Faults1.ofSteps (t := t) ?_ hfault
  have hfirst := hF _ _ (fun r => (session false c g0 nbits coef [f0] r.2).bind fun q => .ret (r.1 :: q.1, q.2))
    (fun r => (session true c g1 nbits coef [f1] r.2).bind fun q => .ret (r.1 :: q.1, q.2))
  refine Steps.trans hfirst ?_
  dsimp only
  rw [session, session, i0, i1]
  simp only [Proc.bind_assoc]
  exact ht

theorem byte_bad {x : Byte} {t : ℕ} (ht : t ≠ 0) (h : x.getLsbD t = true) : x ≠ 0#8 ∧ x ≠ 1#8 := by
  constructor
  · rintro rfl; simp at h
  · rintro rfl
    rw [BitVec.getLsbD_one] at h
    simp at h
    exact ht h

theorem drop_cons_getD {s : Bytes} {k : ℕ} (h : k < s.length) : s.drop k = s.getD k 0#8 :: s.drop (k + 1) := by
  rw [List.getD_eq_getElem _ _ h, List.drop_eq_getElem_cons h]

theorem encBools_getD (v : List Bool) {k : ℕ} (h : k < (v.length + 7) / 8) : (encBools v).getD k 0#8 = packByte v k := by
  rw [List.getD_eq_getElem _ _ (by simpa [encBools] using h)]
  simp [encBools]

/-- C75, the certain case: whatever the randomness, if the first query had at least `8 K + 2` distinct keys at server 1, where `K` is the number of
bytes of the second query's masked bits, then the second query is undefined at server 1. (The verdict is read from the stale vector.) -/
theorem C75_false_freq_certain (c : StoreCfg) {g0 g1 : StoreRng} (hg : GoodRng intModulus g0) {nbits : ℕ} (coef : ℕ → ℤ)
    {a b a' b' : List (Bytes × List Bool)} {e0 e1 f0 f1 : Env} {y : Shared} {s0 s1 : Srv} (hs : InStep y s0 s1) (hu : y.uses ≤ 1000000)
    (hst : c.batch * c.nbits / 2 + (keysOf b).card * 2 ^ nbits ≤ s0.cor.dabits.length)
    (hst' : (keysOf b).card * 2 ^ nbits + (keysOf b').card * 2 ^ nbits ≤ s0.cor.dabits.length)
    (he : (Batch.freq a b).Arrives nbits e0.stream e1.stream) (hn : nbits ≤ 30) (hcap : (keysOf b).card ≤ a.length)
    (hsz : (keysOf b).card * 2 ^ nbits < 2 ^ 32) (hW : totalWeight (2 ^ nbits) a b = a.length) (ho : ∀ α : Type, IsOrder (e1.ord (α := α)))
    (hf : (Batch.freq a' b').Arrives nbits f0.stream f1.stream) (hcap' : (keysOf b').card ≤ a'.length)
    (hsz' : (keysOf b').card * 2 ^ nbits < 2 ^ 32) (ho' : ∀ α : Type, IsOrder (f1.ord (α := α)))
    (hbig : 8 * (((keysOf b').card * 2 ^ nbits + 7) / 8) + 2 ≤ (keysOf b).card) :
    Faults1 (session false c g0 nbits coef [e0, f0] s0) (session true c g1 nbits coef [e1, f1] s1) := by
  set K := ((keysOf b').card * 2 ^ nbits + 7) / 8 with hK
  have hx := byte_bad (x := packByte (List.replicate (keysOf b).card true) K) (t := 1) (by norm_num) (by
    rw [packByte_bit _ _ _ (by norm_num), List.getD_eq_getElem _ _ (by rw [List.length_replicate]; omega), List.getElem_replicate])
  have hk : K < ((List.replicate (keysOf b).card true).length + 7) / 8 := by rw [List.length_replicate]; omega
  have hk' : K < (encBools (List.replicate (keysOf b).card true)).length := by simpa [encBools] using hk
  have hdrop : ∀ m, staleVerdict (keysOf b).card ((keysOf b').card * 2 ^ nbits) m = packByte (List.replicate (keysOf b).card true) K ::
      ((encBools (List.replicate (keysOf b).card true)).drop (K + 1) ++ encBools m) := fun m => by
    rw [staleVerdict, ← hK, List.drop_append_of_le_length hk'.le, drop_cons_getD hk', encBools_getD _ hk, List.cons_append]
  exact C75_false_freq_twice c hg coef hs hu hst hst' he hn hcap hsz hW ho hf hcap' hsz' ho' (hdrop _) hx.1 hx.2

/-- C75, the other case: the verdict is read from the second query's masked bits, and server 1 reaches undefined behaviour unless seven particular bits
(fewer at the end of the vector), which look random, are all 0. -/
theorem C75_false_freq_masked (c : StoreCfg) {g0 g1 : StoreRng} (hg : GoodRng intModulus g0) {nbits : ℕ} (coef : ℕ → ℤ)
    {a b a' b' : List (Bytes × List Bool)} {e0 e1 f0 f1 : Env} {y : Shared} {s0 s1 : Srv} (hs : InStep y s0 s1) (hu : y.uses ≤ 1000000)
    (hst : c.batch * c.nbits / 2 + (keysOf b).card * 2 ^ nbits ≤ s0.cor.dabits.length)
    (hst' : (keysOf b).card * 2 ^ nbits + (keysOf b').card * 2 ^ nbits ≤ s0.cor.dabits.length)
    (he : (Batch.freq a b).Arrives nbits e0.stream e1.stream) (hn : nbits ≤ 30) (hcap : (keysOf b).card ≤ a.length)
    (hsz : (keysOf b).card * 2 ^ nbits < 2 ^ 32) (hW : totalWeight (2 ^ nbits) a b = a.length) (ho : ∀ α : Type, IsOrder (e1.ord (α := α)))
    (hf : (Batch.freq a' b').Arrives nbits f0.stream f1.stream) (hcap' : (keysOf b').card ≤ a'.length)
    (hsz' : (keysOf b').card * 2 ^ nbits < 2 ^ 32) (ho' : ∀ α : Type, IsOrder (f1.ord (α := α))) {L K j : ℕ}
    (hL : L = ((keysOf b).card + 7) / 8) (hK : K = ((keysOf b').card * 2 ^ nbits + 7) / 8) (hLK : L ≤ K) (hj : 8 * (K - L) < j) (hj' : j < 8 * (K - L) + 8)
    (hbit : (freqMasked (2 ^ nbits) a' (f1.ord (admit anyRow b' [])).keys
      (((s0.cor.dabits.drop ((keysOf b).card * 2 ^ nbits)).take ((keysOf b').card * 2 ^ nbits)).map (·.b2))).getD j false = true) :
    Faults1 (session false c g0 nbits coef [e0, f0] s0) (session true c g1 nbits coef [e1, f1] s1) := by
  set v := freqMasked (2 ^ nbits) a' (f1.ord (admit anyRow b' [])).keys
      (((s0.cor.dabits.drop ((keysOf b).card * 2 ^ nbits)).take ((keysOf b').card * 2 ^ nbits)).map (·.b2)) with hv
  have hx := byte_bad (x := packByte v (K - L)) (t := j - 8 * (K - L)) (by omega) (by
    rw [packByte_bit _ _ _ (by omega), show 8 * (K - L) + (j - 8 * (K - L)) = j by omega]; exact hbit)
  have hjv : j < v.length := by
    by_contra hc
    rw [List.getD_eq_default _ _ (by omega)] at hbit
    cases hbit
  have hk : K - L < (v.length + 7) / 8 := by omega
  have hk' : K - L < (encBools v).length := by simpa [encBools] using hk
  have hl : (encBools (List.replicate (keysOf b).card true)).length = L := by simp [encBools, hL]
  refine C75_false_freq_twice c hg coef hs hu hst hst' he hn hcap hsz hW ho hf hcap' hsz' ho' (x := packByte v (K - L)) (rest := (encBools v).drop (K - L + 1)) ?_
    hx.1 hx.2
  rw [staleVerdict, ← hK, ← hv, List.drop_append, hl, List.drop_eq_nil_of_le (by omega), List.nil_append, drop_cons_getD hk', encBools_getD _ hk]

/-- C75, a concrete session: twice the same two honest FREQ submissions (buckets 0 and 1). There are servers in step with a store full of daBits for which
the second query is undefined at server 1, in every schedule. -/
theorem C75_false_witness (c : StoreCfg) {g0 g1 : StoreRng} (hg : GoodRng intModulus g0) (coef : ℕ → ℤ) :
    let e0 := plainEnv (encInit ⟨10, 2, 0⟩ ++ encFreqShares [(keyA, [true, false]), (keyB, [true, true])])
    let e1 := plainEnv (encInit ⟨10, 2, 0⟩ ++ encFreqShares [(keyA, [false, false]), (keyB, [true, false])])
    ∃ y s0 s1, InStep y s0 s1 ∧ Faults1 (session false c g0 1 coef [e0, e0] s0) (session true c g1 1 coef [e1, e1] s1) := by
  have hc : Canon 5 intModulus := by simp only [Canon]; decide
  set n := c.batch * c.nbits / 2 + 8 with hn
  have hda : List.Forall₂ (DaOk intModulus) (List.replicate n ⟨0, false⟩) (List.replicate n ⟨0, false⟩) := by
    generalize n = n
    induction n with
    | zero => exact .nil
    | succ n ih =>
      rw [List.replicate_succ]
      refine .cons ?_ ih
      unfold DaOk DaBitPair
      simp [Canon]
      decide
  have hI : InStep ⟨5, 0, 0⟩ ⟨⟨RootTables.start, [], 5, 0, 0⟩, ⟨List.replicate n ⟨0, false⟩, [], 0⟩⟩
      ⟨⟨RootTables.start, [], 5, 0, 0⟩, ⟨List.replicate n ⟨0, false⟩, [], 0⟩⟩ :=
    ⟨⟨rfl, hc, rfl, rfl, ⟨[], .start⟩, by simp⟩, ⟨rfl, hc, rfl, rfl, ⟨[], .start⟩, by simp⟩, ⟨hda, .nil⟩⟩
  refine ⟨_, _, _, hI, ?_⟩
  have hcard : (keysOf [(keyA, [false, false]), (keyB, [true, false])]).card = 2 := by decide
  have harr : (Batch.freq [(keyA, [true, false]), (keyB, [true, true])] [(keyA, [false, false]), (keyB, [true, false])]).Arrives 1
      (encInit ⟨10, 2, 0⟩ ++ encFreqShares [(keyA, [true, false]), (keyB, [true, true])])
      (encInit ⟨10, 2, 0⟩ ++ encFreqShares [(keyA, [false, false]), (keyB, [true, false])]) :=
    ⟨_, _, ⟨by decide, 0, by simp, rfl⟩, freqStream_of rfl (by decide), ⟨by decide, 0, by simp, rfl⟩, freqStream_of rfl (by decide)⟩
  refine C75_false_freq_masked c hg coef hI (by norm_num) (a := [(keyA, [true, false]), (keyB, [true, true])])
    (b := [(keyA, [false, false]), (keyB, [true, false])]) (a' := [(keyA, [true, false]), (keyB, [true, true])])
    (b' := [(keyA, [false, false]), (keyB, [true, false])]) ?_ ?_ harr (by norm_num) (by decide) (by decide) (by decide) (plain_order _) harr (by decide) (by decide)
    (plain_order _) (L := 1) (K := 1) (j := 3) (by rw [hcard]) (by rw [hcard]; norm_num) le_rfl (by norm_num) (by norm_num) ?_
  · rw [hcard, List.length_replicate]; omega
  · rw [hcard, List.length_replicate]; omega
  · rw [hcard, List.drop_replicate, List.take_replicate, show min (2 * 2 ^ 1) (n - 2 * 2 ^ 1) = 4 by omega]
    decide

/-- `C75_false_max` has wrong answers: the only submission held by both servers has its highest column at 0, a submission known to server 1 only moves it to 1. -/
example : (Batch.max true 1 [(keyA, [1, 0])] [(keyA, [0, 0]), (keyB, [0, 5])]).Ok 1 ∧
    ¬ 2 * (bothKeys (fun _ => true) [(keyA, [(1 : U64), 0])] [(keyA, [0, 0]), (keyB, [0, 5])]).card < 1 ∧
    maxCol [(keyA, [1, 0])] [(keyA, [0, 0]), (keyB, [0, 5])] 1 = 0#64 ∧ maxCol [(keyA, [1, 0])] [(keyA, [0, 0]), (keyB, [0, 5])] 0 ≠ 0#64 ∧
    staleCol [(keyA, [1, 0])] [(keyA, [0, 0]), (keyB, [0, 5])] 1 ≠ 0#64 := by
  refine ⟨⟨by unfold Keyed; decide, by unfold Keyed; decide, by unfold RowsOk; decide, by unfold RowsOk; decide, by norm_num, by decide, by decide,
    .inr ⟨0, by norm_num, by decide⟩⟩, by decide, by decide, by decide, by decide⟩

/-- Non-vacuity of the certain case: ten keys with one-bit rows in the first query, one key in the second. -/
example : 8 * ((1 * 2 ^ 0 + 7) / 8) + 2 ≤ 10 := by norm_num

/-- Non-vacuity of the positive part: a BIT_SUM round. -/
example : RoundOk 1 (Batch.bitSum [(keyA, true), (keyB, true)] [(keyA, false)], plainEnv (encInit ⟨1, 2, 0⟩ ++ encBitShares [(keyA, true), (keyB, true)]),
    plainEnv (encInit ⟨1, 1, 9⟩ ++ encBitShares [(keyA, false)])) ∧ (Batch.bitSum [(keyA, true), (keyB, true)] [(keyA, false)]).Sum :=
  ⟨⟨⟨[], [], ⟨by decide, 0, by simp, by rw [List.append_nil]; rfl⟩, ⟨by decide, 9, by simp, by rw [List.append_nil]; rfl⟩⟩,
    ⟨by unfold Keyed; decide, by unfold Keyed; decide⟩, plain_order _, by simp only [plainEnv, Canon]; decide⟩, trivial⟩

end Verif

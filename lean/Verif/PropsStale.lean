import Verif.PropsMain

/-!
# C47 is false for FREQ: the bytes it leaves are read by the next operation
-/

namespace Verif

/-- From `q` unread on the way to server 1 the programs come to their results with `q'` unread. -/
def RunsTo {α β : Type} (q : Bytes) (P0 : Proc α) (P1 : Proc β) (a : α) (b : β) (q' : Bytes) : Prop :=
  ∀ (γ δ : Type) (k0 : α → Proc γ) (k1 : β → Proc δ),
    Steps ⟨P0.bind k0, P1.bind k1, q, []⟩ ⟨k0 a, k1 b, q', []⟩

theorem RunsTo.bind {α β α' β' : Type} {P0 : Proc α} {P1 : Proc β} {a : α} {b : β} {Q0 : α → Proc α'} {Q1 : β → Proc β'} {c : α'} {d : β'}
    {q q' q'' : Bytes} (h : RunsTo q P0 P1 a b q') (h' : RunsTo q' (Q0 a) (Q1 b) c d q'') : RunsTo q (P0.bind Q0) (P1.bind Q1) c d q'' := by
  intro γ δ k0 k1
  rw [Proc.bind_assoc, Proc.bind_assoc]
  exact (h _ _ _ _).trans (h' _ _ _ _)

theorem RunsTo.ret {α β : Type} (q : Bytes) (a : α) (b : β) : RunsTo q (.ret a) (.ret b) a b q := fun _ _ _ _ => .refl _

theorem RunsTo.thenRet {α β γ δ : Type} {P0 : Proc α} {P1 : Proc β} {a : α} {b : β} {q q' : Bytes} (h : RunsTo q P0 P1 a b q') (f : α → γ)
    (g : β → δ) : RunsTo q (P0.bind fun r => .ret (f r)) (P1.bind fun r => .ret (g r)) (f a) (g b) q' := h.bind (RunsTo.ret _ _ _)

theorem RunsTo.ends {α β : Type} {P0 : Proc α} {P1 : Proc β} {a : α} {b : β} {q : Bytes} (h : RunsTo [] P0 P1 a b q) : Ends P0 P1 a b q [] :=
  PairLeft.ends h

theorem steps_recvKeys {γ δ : Type} : ∀ (ks : List Bytes) (k0 : List Bytes → Proc γ) (P1 : Proc δ) (q : Bytes),
    (∀ k ∈ ks, k.length = pkLength) → Steps ⟨(recvKeys ks.length).bind k0, P1, q, ks.flatten⟩ ⟨k0 ks, P1, q, []⟩
  | [], _, _, _, _ => .refl _
  | k :: ks, k0, P1, q, hk => by
    rw [List.length_cons, recvKeys, Proc.bind_assoc, List.flatten_cons]
    have hr : (Rd.get pkLength .ret).run (k ++ ks.flatten) = some (k, ks.flatten) :=
      Reads.getRet (k := id) (hk k (List.mem_cons_self ..)) _
    refine (steps_read0 _ _ _ _ hr _ _ _).trans ?_
    rw [Proc.bind_assoc]
    exact steps_recvKeys ks (fun ks => k0 (k :: ks)) P1 q fun k' h' => hk k' (List.mem_cons_of_mem _ h')

theorem listen_runs (ks : List Bytes) (hk : ∀ k ∈ ks, k.length = pkLength) (hl : ks.length < 2 ^ 32) (q : Bytes) :
    RunsTo q listen (announce ks) ks () q := by
  intro γ δ k0 k1
  have e : (BitVec.ofNat 64 ((BitVec.ofNat 64 ks.length : U64).toNat % 2 ^ 32) : U64).toNat = ks.length := by
    rw [BitVec.toNat_ofNat, BitVec.toNat_ofNat]
    omega
  refine (steps_announce ks _ k1 q).trans ?_
  unfold listen
  rw [Proc.bind_assoc]
  refine (steps_read0 rdSize _ ks.flatten _ (reads_size (BitVec.ofNat 64 ks.length) ks.flatten) _ _ _).trans ?_
  rw [e]
  exact steps_recvKeys ks k0 _ q hk

/-- The XOR `xor_op` computes when server 1 takes all its submissions for valid. -/
def staleAgg (subs0 subs1 : List (Bytes × U64)) : U64 :=
  xorOver (bothKeys (fun _ => true) subs0 subs1) (fun k => (firstOf (fun _ => true) subs0 k).getD 0#64) ^^^
    xorOver (subs1.map (·.1)).toFinset fun k => (firstOf (fun _ => true) subs1 k).getD 0#64

theorem words_keys {subs : List (Bytes × U64)} {o : Map U64} (hp : o.Perm (admit (fun _ => true) subs [])) :
    o.keys.toFinset = (subs.map (·.1)).toFinset := by
  ext k
  rw [List.mem_toFinset, List.mem_toFinset]
  have h1 : k ∈ o.keys ↔ (firstOf (fun _ => true) subs k).isSome = true := by
    rw [← C34_first_admissible, lookup_isSome_iff]
    exact (hp.map _).mem_iff
  rw [h1]
  unfold firstOf
  rw [Option.isSome_map, List.find?_isSome, List.mem_map]
  constructor
  · rintro ⟨e, he, h⟩
    exact ⟨e, he, by simpa using h⟩
  · rintro ⟨e, he, rfl⟩
    exact ⟨e, he, by simp⟩

/-- AND/OR with a stale all-true validity vector for as many rows as server 1 has. -/
theorem xor_stale (isAnd : Bool) (subs0 subs1 : List (Bytes × U64)) (rest0 rest1 : Bytes) (hk0 : Keyed subs0)
    (hk1 : Keyed subs1) (hlen : subs1.length < 2 ^ 32) (ord : Map U64 → Map U64) (ho : IsOrder ord) :
    ∃ q, q.length = ((subs1.map (·.1)).toFinset.card + 7) / 8 ∧
    RunsTo (encBools (List.replicate (subs1.map (·.1)).toFinset.card true)) (xorOpOp0 isAnd subs0.length (encIntShares subs0 ++ rest0))
      (xorOpOp1 subs1.length (encIntShares subs1 ++ rest1) ord)
      (verdict (bothKeys (fun _ => true) subs0 subs1).card subs0.length
        (if isAnd then decide (staleAgg subs0 subs1 = 0#64) else decide (staleAgg subs0 subs1 ≠ 0#64))) .noAns q := by
  unfold xorOpOp0 xorOpOp1
  rw [xorIntake_stream subs0 hk0, xorIntake_stream subs1 hk1]
  simp only [Proc.ofOption, Proc.ret_bind']
  have hp := ho (admit (fun _ => true) subs1 [])
  generalize ord (admit (fun _ => true) subs1 []) = o at hp
  have hol := order_length hp
  have hn := order_nodup hp
  have hcard : (subs1.map (·.1)).toFinset.card = o.keys.length := by rw [← words_keys hp, List.toFinset_card_of_nodup hn]
  have hkl : o.keys.length = o.length := by simp [Map.keys]
  have hall : matched (admit (fun _ => true) subs1 []) o.keys = List.replicate o.keys.length true := by
    rw [matched, List.eq_replicate_iff]
    refine ⟨by simp, fun v hv => ?_⟩
    obtain ⟨k, hk, rfl⟩ := List.mem_map.1 hv
    rw [lookup_isSome_iff]
    exact (hp.map _).mem_iff.1 hk
  refine ⟨encBools (matched (admit (fun _ => true) subs0 []) o.keys), by simp [encBools, matched, hcard], ?_⟩
  unfold xorOp0 xorOp1
  refine (listen_runs o.keys (order_keyed hp hk1) (by omega) _).bind ?_
  intro γ δ k0 k1
  rw [hcard, ← hall]
  simp only [Proc.bind_assoc]
  refine .head (.send0 ..) ?_
  simp only [Proc.ret_bind']
  have hrd := reads_bools (matched (admit (fun _ => true) subs1 []) o.keys) (encBools (matched (admit (fun _ => true) subs0 []) o.keys))
  rw [matched_length, hkl] at hrd
  refine (steps_read1 _ _ _ _ hrd _ _ _).trans ?_
  refine .head (.send1 ..) ?_
  rw [List.nil_append]
  have hrd' := reads_u64 (xorFold (admit (fun _ => true) subs1 []) (o.map (·.1)) (matched (admit (fun _ => true) subs1 []) o.keys)) []
  rw [List.append_nil] at hrd'
  have hsum0 := xorFold_matched (admit (fun _ => true) subs0 []) (admit (fun _ => true) subs0 []) o.keys hn
  have hsum1 : xorFold (admit (fun _ => true) subs1 []) (o.map (·.1)) (matched (admit (fun _ => true) subs1 []) o.keys) =
      xorOver (subs1.map (·.1)).toFinset fun k => (firstOf (fun _ => true) subs1 k).getD 0#64 := by
    rw [show o.map (·.1) = o.keys from rfl, xorFold_matched _ _ _ hn, Finset.filter_true_of_mem, words_keys hp]
    · simp only [C34_first_admissible]
    · intro k hk
      rw [lookup_isSome_iff]
      exact (hp.map _).mem_iff.1 (List.mem_toFinset.1 hk)
  rw [bothKeys_eq _ _ _ _ hp] at hsum0
  simp only [C34_first_admissible] at hsum0
  refine (steps_read0 rdU64 _ _ _ hrd' _ _ _).trans ?_
  rw [finish_eq, count_order _ _ _ _ hp, hsum0, hsum1]
  exact .refl _

theorem maybeUpdate_full {p : ℕ} {c : StoreCfg} (g : StoreRng) (sv : Bool) {s : Store} (h : c.batch * c.nbits / 2 ≤ s.dabits.length) :
    maybeUpdate p c g sv s = .ret s := by
  unfold maybeUpdate
  dsimp only
  rw [if_neg (show ¬ s.dabits.length < c.batch * c.nbits / 2 by omega)]
  simp

theorem maybeRefresh_none {sv : Bool} {d : ℤ} {st : SnipState} (h : st.uses ≤ 1000000) : maybeRefresh sv d st = .ret st := by
  unfold maybeRefresh randomXThreshold
  rw [if_neg (by omega)]

/-- C47 is false for FREQ. From servers in step, a FREQ batch whose weights add up to the number of submissions followed by AND or OR with
as many keys at server 1: in every schedule server 1 takes the stale vector for the validity of its new rows and folds in ALL its
submissions, so that the answer is computed from `staleAgg` instead of the XOR over the keys held by both. Bytes stay unread after this
operation too. (`hst`: the store of daBits is not refilled in between.) -/
theorem C47_false_freq (c : StoreCfg) {g0 g1 : StoreRng} (hg : GoodRng intModulus g0) {nbits : ℕ} (coef : ℕ → ℤ)
    {a b : List (Bytes × List Bool)} {isAnd : Bool} {a' b' : List (Bytes × U64)} {e0 e1 f0 f1 : Env} {y : Shared} {s0 s1 : Srv} (hs : InStep y s0 s1)
    (hu : y.uses ≤ 1000000) (hst : c.batch * c.nbits / 2 + (keysOf b).card * 2 ^ nbits ≤ s0.cor.dabits.length)
    (he : (Batch.freq a b).Arrives nbits e0.stream e1.stream) (hn : nbits ≤ 30) (hcap : (keysOf b).card ≤ a.length)
    (hsz : (keysOf b).card * 2 ^ nbits < 2 ^ 32) (hW : totalWeight (2 ^ nbits) a b = a.length) (ho : ∀ α : Type, IsOrder (e1.ord (α := α)))
    (hf : (Batch.xor isAnd a' b').Arrives nbits f0.stream f1.stream) (hk0 : Keyed a') (hk1 : Keyed b')
    (hrows : (b'.map (·.1)).toFinset.card = (keysOf b).card) (ho' : ∀ α : Type, IsOrder (f1.ord (α := α))) :
    ∃ s0' s1' q, q.length = ((keysOf b).card + 7) / 8 ∧
      Ends (session false c g0 nbits coef [e0, f0] s0) (session true c g1 nbits coef [e1, f1] s1)
        ([.hist (verdict (keysOf b).card a.length (histogram (2 ^ nbits) (keysOf b) (freqVec (2 ^ nbits) a b))),
          .flag (verdict (bothKeys (fun _ => true) a' b').card a'.length
            (if isAnd then decide (staleAgg a' b' = 0#64) else decide (staleAgg a' b' ≠ 0#64)))], s0')
        ([.hist .noAns, .flag .noAns], s1') q [] := by
  obtain ⟨r0, r1, o0, v0, o1, v1⟩ := he
  obtain ⟨m0, -, q0, k0⟩ := o0.run
  obtain ⟨m1, -, q1, k1⟩ := o1.run
  obtain ⟨t0, t1, p0, p1⟩ := hf
  obtain ⟨n0, -, w0, l0⟩ := p0.run
  obtain ⟨n1, -, w1, l1⟩ := p1.run
  obtain ⟨st0', st1', hda, hP, -⟩ := freqOp_run c (g1 := g1) hg hn o0.1 v0 v1 hcap hsz hs.cor e1.ord (ho _)
  have hP : RunsTo [] _ _ _ _ _ := hP hW
  obtain ⟨q, hq, hX⟩ := xor_stale isAnd a' b' t0 t1 hk0 hk1 p1.1 f1.ord (ho' _)
  rw [hrows] at hq hX
  obtain ⟨d0, d1, ed0, ed1, -, hk⟩ := hda.new
  have len0 : c.batch * c.nbits / 2 ≤ st0'.dabits.length := by
    rw [ed0, List.length_drop, List.length_append]; omega
  have len1 : c.batch * c.nbits / 2 ≤ st1'.dabits.length := by rw [← hda.ok.len]; exact len0
  refine ⟨⟨s0.snip, st0'⟩, ⟨s1.snip, st1'⟩, q, hq, RunsTo.ends ?_⟩
  have i0 : iteration false c g0 nbits coef e0 s0 = (freqOp0 c g0 nbits a.length r0 s0.cor).bind fun r => .ret (.hist r.1, ⟨s0.snip, r.2⟩) := by
    unfold iteration
    rw [maybeRefresh_none (by rw [hs.sn0.huses]; exact hu), maybeUpdate_full _ _ (by omega)]
    simp only [Proc.ret_bind', dispatch0, q0, Proc.ofOption, k0]
    rfl
  have i1 : iteration true c g1 nbits coef e1 s1 = (freqOp1 c g1 nbits b.length r1 e1.ord s1.cor).bind fun r => .ret (.hist r.1, ⟨s1.snip, r.2⟩) := by
    unfold iteration
    rw [maybeRefresh_none (by rw [hs.sn1.huses]; exact hu), maybeUpdate_full _ _ (by rw [← hs.cor.len]; omega)]
    simp only [Proc.ret_bind', dispatch1, q1, Proc.ofOption, k1]
    rfl
  have j0 : iteration false c g0 nbits coef f0 ⟨s0.snip, st0'⟩ =
      (xorOpOp0 isAnd a'.length (encIntShares a' ++ t0)).bind fun r => .ret (.flag r, ⟨s0.snip, st0'⟩) := by
    unfold iteration
    rw [maybeRefresh_none (by rw [hs.sn0.huses]; exact hu), maybeUpdate_full _ _ len0]
    cases isAnd <;> simp only [Proc.ret_bind', dispatch0, w0, Proc.ofOption, l0] <;> rfl
  have j1 : iteration true c g1 nbits coef f1 ⟨s1.snip, st1'⟩ =
      (xorOpOp1 b'.length (encIntShares b' ++ t1) f1.ord).bind fun r => .ret (.flag r, ⟨s1.snip, st1'⟩) := by
    unfold iteration
    rw [maybeRefresh_none (by rw [hs.sn1.huses]; exact hu), maybeUpdate_full _ _ len1]
    cases isAnd <;> simp only [Proc.ret_bind', dispatch1, w1, Proc.ofOption, l1] <;> rfl
  unfold session session session
  rw [i0, i1]
  refine (hP.thenRet (fun r => (Answer.hist r.1, (⟨s0.snip, r.2⟩ : Srv))) fun r => (Answer.hist r.1, (⟨s1.snip, r.2⟩ : Srv))).bind ?_
  dsimp only
  rw [j0, j1]
  have hY := (hX.thenRet (fun r => (Answer.flag r, (⟨s0.snip, st0'⟩ : Srv))) fun r => (Answer.flag r, (⟨s1.snip, st1'⟩ : Srv))).thenRet
    (fun r => ([r.1], r.2)) fun r => ([r.1], r.2)
  exact hY.thenRet (fun r => (Answer.hist (verdict (keysOf b).card a.length (histogram (2 ^ nbits) (keysOf b) (freqVec (2 ^ nbits) a b))) :: r.1, r.2))
    fun r => (Answer.hist Ret.noAns :: r.1, r.2)

/-- An environment with the given stream, for examples. -/
def plainEnv (s : Bytes) : Env := ⟨s, 0, fun _ => false, fun _ => 0, fun _ _ => 0, fun _ => 0, fun _ _ _ => 0, fun m => m, false⟩

theorem plain_order (s : Bytes) (α : Type) : IsOrder ((plainEnv s).ord (α := α)) := fun _ => .refl _

/-- C47, a concrete session. Two honest FREQ submissions (buckets 0 and 1), then OR: the only submission held by both servers is 0, and
server 1 has another one, not known to server 0, with share 5. The answer has to be `false`, and is if OR comes first; after the FREQ
batch it is `true`, whatever the schedule and the randomness, for every size of the daBit store. -/
theorem C47_false_witness (c : StoreCfg) {g0 g1 : StoreRng} (hg : GoodRng intModulus g0) (coef : ℕ → ℤ) {y : Shared} {s0 s1 : Srv} (hs : InStep y s0 s1)
    (hu : y.uses ≤ 1000000) (hst : c.batch * c.nbits / 2 + 4 ≤ s0.cor.dabits.length) :
    let e0 := plainEnv (encInit ⟨10, 2, 0⟩ ++ encFreqShares [(keyA, [true, false]), (keyB, [true, true])])
    let e1 := plainEnv (encInit ⟨10, 2, 0⟩ ++ encFreqShares [(keyA, [false, false]), (keyB, [true, false])])
    let f0 := plainEnv (encInit ⟨4, 1, 0⟩ ++ encIntShares [(keyA, 0)])
    let f1 := plainEnv (encInit ⟨4, 2, 0⟩ ++ encIntShares [(keyA, 0), (keyB, 5)])
    (∃ s0' s1' q, q ≠ [] ∧ Ends (session false c g0 1 coef [e0, f0] s0) (session true c g1 1 coef [e1, f1] s1)
      ([.hist (.ans [1, 1]), .flag (.ans true)], s0') ([.hist .noAns, .flag .noAns], s1') q []) ∧
    (∃ s0' s1', Always (session false c g0 1 coef [f0] s0) (session true c g1 1 coef [f1] s1)
      ([.flag (.ans false)], s0') ([.flag .noAns], s1')) := by
  have hx : (Batch.xor false [(keyA, 0#64)] [(keyA, 0#64), (keyB, 5#64)]).Arrives 1 (encInit ⟨4, 1, 0⟩ ++ encIntShares [(keyA, 0)])
      (encInit ⟨4, 2, 0⟩ ++ encIntShares [(keyA, 0), (keyB, 5)]) :=
    ⟨[], [], ⟨by decide, 0, by simp, by rw [List.append_nil]; rfl⟩, ⟨by decide, 0, by simp, by rw [List.append_nil]; rfl⟩⟩
  have hk0 : Keyed [(keyA, 0#64)] := by unfold Keyed; decide
  have hk1 : Keyed [(keyA, 0#64), (keyB, 5#64)] := by unfold Keyed; decide
  refine ⟨?_, ?_⟩
  · obtain ⟨s0', s1', q, hq, h⟩ := C47_false_freq c (g1 := g1) hg (nbits := 1) coef (a := [(keyA, [true, false]), (keyB, [true, true])])
      (b := [(keyA, [false, false]), (keyB, [true, false])]) (isAnd := false) (a' := [(keyA, 0)]) (b' := [(keyA, 0), (keyB, 5)])
      (e0 := plainEnv (encInit ⟨10, 2, 0⟩ ++ encFreqShares [(keyA, [true, false]), (keyB, [true, true])]))
      (e1 := plainEnv (encInit ⟨10, 2, 0⟩ ++ encFreqShares [(keyA, [false, false]), (keyB, [true, false])]))
      (f0 := plainEnv (encInit ⟨4, 1, 0⟩ ++ encIntShares [(keyA, 0)])) (f1 := plainEnv (encInit ⟨4, 2, 0⟩ ++ encIntShares [(keyA, 0), (keyB, 5)]))
      hs hu (by rw [show (keysOf [(keyA, [false, false]), (keyB, [true, false])]).card * 2 ^ 1 = 4 by decide]; exact hst)
      ⟨_, _, ⟨by decide, 0, by simp, rfl⟩, freqStream_of rfl (by decide), ⟨by decide, 0, by simp, rfl⟩, freqStream_of rfl (by decide)⟩
      (by norm_num) (by decide) (by decide) (by decide) (plain_order _) hx hk0 hk1 (by decide) (plain_order _)
    refine ⟨s0', s1', q, fun h => ?_, ?_⟩
    · rw [h] at hq; revert hq; decide
    · have z1 : verdict (keysOf [(keyA, [false, false]), (keyB, [true, false])]).card [(keyA, [true, false]), (keyB, [true, true])].length
          (histogram (2 ^ 1) (keysOf [(keyA, [false, false]), (keyB, [true, false])]) (freqVec (2 ^ 1) [(keyA, [true, false]), (keyB, [true, true])]
            [(keyA, [false, false]), (keyB, [true, false])])) = .ans [1, 1] := by decide
      have z2 : verdict (bothKeys (fun _ => true) [(keyA, (0 : U64))] [(keyA, 0), (keyB, 5)]).card [(keyA, (0 : U64))].length
          (if false = true then decide (staleAgg [(keyA, 0)] [(keyA, 0), (keyB, 5)] = 0#64)
            else decide (staleAgg [(keyA, 0)] [(keyA, 0), (keyB, 5)] ≠ 0#64)) = .ans true := by decide
      rw [z1, z2] at h
      exact h
  · obtain ⟨as, s0', s1', y', h, hA, -⟩ := C47_session_partial c (g1 := g1) hg (nbits := 1) coef
      [(.xor false [(keyA, 0)] [(keyA, 0), (keyB, 5)], plainEnv (encInit ⟨4, 1, 0⟩ ++ encIntShares [(keyA, 0)]),
        plainEnv (encInit ⟨4, 2, 0⟩ ++ encIntShares [(keyA, 0), (keyB, 5)]))]
      (by
        intro r hr
        rw [List.mem_singleton] at hr
        subst hr
        exact ⟨hx, ⟨hk0, hk1⟩, plain_order _, by simp only [plainEnv, Canon]; decide⟩) hs
    obtain ⟨a, as', rfl, ha, rfl, -⟩ := hA
    have : a = .flag (.ans false) := ha.trans (congrArg Answer.flag (by decide))
    subst this
    exact ⟨s0', s1', h⟩

/-- Non-vacuity of the session theorems: an unknown message, BIT_SUM with one of two submissions matched, OR. -/
example : ∀ r ∈ [(Batch.idle 77, plainEnv (encInit ⟨77, 3, 0⟩), plainEnv (encInit ⟨77, 5, 0⟩)),
    (Batch.bitSum [(keyA, true), (keyB, true)] [(keyA, false)], plainEnv (encInit ⟨1, 2, 0⟩ ++ encBitShares [(keyA, true), (keyB, true)]),
      plainEnv (encInit ⟨1, 1, 9⟩ ++ encBitShares [(keyA, false)])),
    (Batch.xor false [(keyA, 0)] [(keyB, 5)], plainEnv (encInit ⟨4, 1, 0⟩ ++ encIntShares [(keyA, 0)]),
      plainEnv (encInit ⟨4, 1, 0⟩ ++ encIntShares [(keyB, 5)]))], RoundOk 16 r := by
  intro r hr
  simp only [List.mem_cons, List.not_mem_nil, or_false] at hr
  have hd : ∀ s, Canon (plainEnv s).draw intModulus := fun s => by simp only [plainEnv, Canon]; decide
  rcases hr with rfl | rfl | rfl
  · exact ⟨⟨3, 5, [], [], ⟨by decide, 0, by simp, by rw [List.append_nil]; rfl⟩, ⟨by decide, 0, by simp, by rw [List.append_nil]; rfl⟩⟩,
      by simp only [Batch.Ok]; decide, plain_order _, hd _⟩
  · exact ⟨⟨[], [], ⟨by decide, 0, by simp, by rw [List.append_nil]; rfl⟩, ⟨by decide, 9, by simp, by rw [List.append_nil]; rfl⟩⟩,
      ⟨by unfold Keyed; decide, by unfold Keyed; decide⟩, plain_order _, hd _⟩
  · exact ⟨⟨[], [], ⟨by decide, 0, by simp, by rw [List.append_nil]; rfl⟩, ⟨by decide, 0, by simp, by rw [List.append_nil]; rfl⟩⟩,
      ⟨by unfold Keyed; decide, by unfold Keyed; decide⟩, plain_order _, hd _⟩

/-- Servers in step with any number of daBits stored exist. -/
example (n : ℕ) : ∃ s0 s1, InStep ⟨5, 0, 0⟩ s0 s1 ∧ n ≤ s0.cor.dabits.length := by
  have hc : Canon 5 intModulus := by simp only [Canon]; decide
  refine ⟨⟨⟨RootTables.start, [], 5, 0, 0⟩, ⟨List.replicate n ⟨0, false⟩, [], 0⟩⟩, ⟨⟨RootTables.start, [], 5, 0, 0⟩, ⟨List.replicate n ⟨0, false⟩, [], 0⟩⟩,
    ⟨⟨rfl, hc, rfl, rfl, ⟨[], .start⟩, by simp⟩, ⟨rfl, hc, rfl, rfl, ⟨[], .start⟩, by simp⟩, ⟨?_, .nil⟩⟩, by simp⟩
  show List.Forall₂ (DaOk intModulus) (List.replicate n ⟨0, false⟩) (List.replicate n ⟨0, false⟩)
  induction n with
  | zero => exact .nil
  | succ n ih =>
    rw [List.replicate_succ]
    refine .cons ?_ ih
    unfold DaOk DaBitPair
    simp [Canon]
    decide

end Verif

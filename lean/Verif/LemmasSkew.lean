import Verif.PropsAfterFreq

/-!
# Runs with unread bytes in both directions

Used for the negation of C50: what VAR does when both sockets still hold bytes of earlier operations.
-/

namespace Verif

/-- From `q` unread on the way to server 1 and `r` on the way to server 0 the programs come to their results with `q'` and `r'` unread. -/
def RunsQ {α β : Type} (q r : Bytes) (P0 : Proc α) (P1 : Proc β) (a : α) (b : β) (q' r' : Bytes) : Prop :=
  ∀ (γ δ : Type) (k0 : α → Proc γ) (k1 : β → Proc δ),
    Steps ⟨P0.bind k0, P1.bind k1, q, r⟩ ⟨k0 a, k1 b, q', r'⟩

theorem RunsQ.bind {α β α' β' : Type} {P0 : Proc α} {P1 : Proc β} {a : α} {b : β} {Q0 : α → Proc α'} {Q1 : β → Proc β'} {c : α'} {d : β'}
    {q r q' r' q'' r'' : Bytes} (h : RunsQ q r P0 P1 a b q' r') (h' : RunsQ q' r' (Q0 a) (Q1 b) c d q'' r'') :
    RunsQ q r (P0.bind Q0) (P1.bind Q1) c d q'' r'' := by
  intro γ δ k0 k1
  rw [Proc.bind_assoc, Proc.bind_assoc]
  exact (h _ _ _ _).trans (h' _ _ _ _)

theorem RunsQ.ret {α β : Type} (q r : Bytes) (a : α) (b : β) : RunsQ q r (.ret a) (.ret b) a b q r := fun _ _ _ _ => .refl _

theorem RunsQ.thenRet {α β γ δ : Type} {P0 : Proc α} {P1 : Proc β} {a : α} {b : β} {q r q' r' : Bytes} (h : RunsQ q r P0 P1 a b q' r') (f : α → γ)
    (g : β → δ) : RunsQ q r (P0.bind fun x => .ret (f x)) (P1.bind fun x => .ret (g x)) (f a) (g b) q' r' := h.bind (RunsQ.ret _ _ _ _)

theorem RunsTo.toQ {α β : Type} {P0 : Proc α} {P1 : Proc β} {a : α} {b : β} {q q' : Bytes} (h : RunsTo q P0 P1 a b q') :
    RunsQ q [] P0 P1 a b q' [] := h

theorem RunsQ.ends {α β : Type} {P0 : Proc α} {P1 : Proc β} {a : α} {b : β} {q r : Bytes} (h : RunsQ [] [] P0 P1 a b q r) : Ends P0 P1 a b q r := by
  have := h α β .ret .ret
  rw [Proc.bind_ret, Proc.bind_ret] at this
  exact Ends.ofSteps this

theorem Pair.runsQ {α β : Type} {P0 : Proc α} {P1 : Proc β} {a : α} {b : β} (h : Pair P0 P1 a b) (hd0 : P0.Deaf) (hd1 : P1.Deaf) (q r : Bytes) :
    RunsQ q r P0 P1 a b q r := by
  intro γ δ k0 k1
  have h1 := h.final.shift hd1 q
  have h2 := (h1.swap.shift hd0 r).swap.under k0 k1
  simpa only [List.append_nil, Proc.ret_bind', Sys.swap] using h2

theorem split_list {α : Type} (l : List α) {n : ℕ} (h : n ≤ l.length) : ∃ u v, l = u ++ v ∧ u.length = n ∧ v.length = l.length - n :=
  ⟨l.take n, l.drop n, (List.take_append_drop n l).symm, by simp [h], by simp⟩

theorem rdFmpzs_any {n : ℕ} (hn : n ≤ maxFmpzBatch) {d : Bytes} (rest : Bytes) (h : d.length = 8 * n) :
    (rdFmpzs n).run (d ++ rest) = some (fmpzsOf n d, rest) := by
  rw [rdFmpzs, dif_neg (by omega)]
  exact Reads.getRet (k := fmpzsOf n) h rest

theorem fmpzsOf_one (d : Bytes) : ∃ z, fmpzsOf 1 d = [z] := ⟨_, rfl⟩

theorem rdCorShares_any {d : Bytes} (rest : Bytes) (h : d.length = 16) : ∃ c, (rdCorShares 1).run (d ++ rest) = some ([c], rest) := by
  obtain ⟨u, v, rfl, hu, hv⟩ := split_list d (n := 8) (by omega)
  rw [h] at hv
  have h1 := rdFmpzs_any (n := 1) (by decide) (v ++ rest) (d := u) (by omega)
  have h2 := rdFmpzs_any (n := 1) (by decide) rest (d := v) (by omega)
  obtain ⟨z, hz⟩ := fmpzsOf_one u
  obtain ⟨z', hz'⟩ := fmpzsOf_one v
  refine ⟨⟨z, z'⟩, ?_⟩
  rw [List.append_assoc, rdCorShares, Rd.run_bind, h1]
  simp only [Rd.run_bind, h2, hz, hz']
  rfl

/-! ## The check at one server, whatever it receives -/

theorem randSumLoop_length {p : ℕ} : ∀ {arr cs : List ℤ} {out o : ℤ}, randSumLoop p out arr cs = some o → arr.length ≤ cs.length
  | [], _, _, _, _ => Nat.zero_le _
  | _ :: _, [], _, _, h => by cases h
  | _ :: arr, _ :: cs, _, _, h => Nat.succ_le_succ (randSumLoop_length (arr := arr) (cs := cs) h)

theorem randSumLoop_some {p : ℕ} : ∀ {arr cs : List ℤ} (out : ℤ), arr.length ≤ cs.length → ∃ o, randSumLoop p out arr cs = some o
  | [], _, out, _ => ⟨out, rfl⟩
  | _ :: _, [], _, h => by simp at h
  | _ :: arr, _ :: cs, _, h => randSumLoop_some (arr := arr) (cs := cs) _ (Nat.le_of_succ_le_succ h)

theorem outShare_any {k : Checker} {cor : Cor} {cs : List ℤ} {o : ℤ} (h : k.outShare intModulus cor cs = some o) (cor' : Cor) :
    ∃ o', k.outShare intModulus cor' cs = some o' ∧ Canon o' intModulus := by
  unfold Checker.outShare at h ⊢
  obtain ⟨x, hx, -⟩ := Option.map_eq_some_iff.1 h
  have := randSumLoop_length hx
  obtain ⟨x', hx'⟩ := randSumLoop_some (p := intModulus) (arr := k.mulCheck intModulus cor' :: k.zeros) (cs := cs) 0 (by simpa using this)
  exact ⟨_, by rw [hx']; rfl, fmod_canon _⟩

/-- `validate_snips` for one submission at one server: it sends 16 bytes, reads 16, sends a canonical number, reads 8 bytes, whatever the bytes
are, and its state advances by one use. -/
theorem validate_alone {c : Circuit} (hc : CircOk c) {x : ℤ} {uses pos : ℕ} {st : SnipState} (h : SnipOk x uses pos st) (sv : Bool) (coef : ℕ → ℤ)
    {ni : ℕ} (hni : nIn c.gates ≤ ni) {pk : Packet} (hp : PacketOk c pk) {sh : List ℤ} (hs : sh.length = ni) :
    ∃ (bs : Bytes) (st' : SnipState) (G : List CorShare → Proc (List Bool × SnipState)) (f : CorShare → ℤ), bs.length = 16 ∧
      SnipOk x (uses + 1) (pos + (c.resultZero.length + 1)) st' ∧ (∀ d, Canon (f d) intModulus) ∧
      validateSnips sv c coef st ni [pk] sh = (exch bs (rdCorShares 1)).bind G ∧
      ∀ d, G [d] = (exch (fmpzBytes (f d)) (rdFmpzs 1)).bind fun os => .ret (List.zipWith (addToZero intModulus) [f d] os, st') := by
  have hk : c.mulGates.length.size ≤ 18 := Nat.size_le.mpr hc.small
  obtain ⟨pre, st', q, s, t, l, hrc, hpre⟩ := prepare_ok h hk 1
  rw [← npow2_pow] at q hrc hpre
  obtain ⟨k0, k1, e0, e1, hv⟩ := verdict_indep hc.wf h.canon hrc hpre hp hp (inps := sh.map fun z => z + z) (i0 := sh) (i1 := sh)
    (by simpa [hs] using hni) (by simp) (by simp) (fun j hj => by
      rw [List.length_map] at hj
      simp only [at0, List.getD_eq_getElem?_getD, List.getElem?_map, List.getElem?_eq_getElem hj, Option.map_some, Option.getD_some]
      push_cast; rfl)
  obtain ⟨o0, o1, r0, r1, -⟩ := hv (coefs coef pos (c.resultZero.length + 1) 0) (by rw [coefs_length])
  have hK : ∃ k, checkerInit intModulus sv c pk pre sh = some k ∧ ∃ cor o, k.outShare intModulus cor (coefs coef pos (c.resultZero.length + 1) 0) = some o := by
    cases sv
    · exact ⟨k0, e0, _, _, r0⟩
    · exact ⟨k1, e1, _, _, r1⟩
  obtain ⟨k, hk, cor, o, ho⟩ := hK
  have hall : ∀ d : CorShare, ∃ o', k.outShare intModulus (Cor.ofShares intModulus (k.corShare intModulus) d)
      (coefs coef pos (c.resultZero.length + 1) 0) = some o' ∧ Canon o' intModulus := fun d => outShare_any ho _
  choose f hf hcan using hall
  obtain ⟨bs, hb, hbl, -⟩ := C14_corshares_roundtrip [k.corShare intModulus] (by
    intro d hd
    rw [List.mem_singleton] at hd
    subst hd
    exact ⟨fits_canon (fmod_canon _), fits_canon (fmod_canon _)⟩)
  have hch : checkers sv c pre ni [pk] sh = some [k] := by
    unfold checkers
    have : pieces ni [pk].length sh = [sh] := by
      simp only [List.length_singleton, pieces]
      rw [← hs, List.take_length]
    rw [this]
    simp [optAll, hk]
  refine ⟨bs, { st' with pos := st'.pos + (c.resultZero.length + 1) }, fun other => (Proc.ofOption (outShares c coef st.pos [k] other)).bind fun os =>
    (exchOpt (encFmpzs os) (rdFmpzs 1)).bind fun os' =>
      .ret (List.zipWith (addToZero intModulus) os os', { st' with pos := st'.pos + 1 * (c.resultZero.length + 1) }), f, by simpa using hbl,
    ⟨s.hx, s.canon, s.huses, by simp [s.hpos], s.tabs, s.store⟩, hcan, ?_, ?_⟩
  · unfold validateSnips
    rw [if_neg (by simp)]
    simp only [List.length_singleton, q, Proc.ofOption, Proc.ret_bind', hch, List.map_cons, List.map_nil, hb, exchOpt, Proc.putOpt]
    rfl
  · intro d
    have h1 : outShares c coef st.pos [k] [d] = some [f d] := by
      simp [outShares, optAll, h.hpos, hf]
    have h2 : encFmpzs [f d] = some (fmpzBytes (f d)) := by
      rw [encFmpzs_of_fits _ (by simpa using fits_canon (hcan d))]; simp
    simp only [h1, h2, Proc.ofOption, Proc.ret_bind', exchOpt, Proc.putOpt, Nat.one_mul]
    rfl

theorem shareConvert_deaf (p : ℕ) (sv : Bool) (raw : ℕ → ℕ → ℕ → U64) (ns nv : ℕ) (ws : List ℕ) (f : List U64) :
    (shareConvert p sv raw ns nv ws f).Deaf := by
  unfold shareConvert
  split
  · trivial
  · refine Proc.Deaf.bind ?_ fun _ => trivial
    cases sv
    · unfold intsumSender
      simp only [Bool.false_eq_true, if_false]
      split
      · exact trivial
      · trivial
    · unfold intsumReceiver
      simp only [if_true]
      split
      · exact fun _ => trivial
      · trivial

/-- A canonical number is sent with a zero as the last byte: the modulus has 48 bits. -/
theorem fmpzBytes_top {o : ℤ} (h : Canon o intModulus) : ∃ u, fmpzBytes o = u ++ [0#8] ∧ u.length = 7 := by
  obtain ⟨h0, h1⟩ := h
  have hl : o.toNat < 2 ^ 48 := by
    have : intModulus < 2 ^ 48 := by decide
    omega
  refine ⟨leBytes 7 o.toNat, ?_, by simp⟩
  have h : o.toNat / 256 / 256 / 256 / 256 / 256 / 256 / 256 = 0 := by omega
  simp only [fmpzBytes, leBytes, h, List.cons_append, List.nil_append]

theorem steps_announceQ {γ δ : Type} (ks : List Bytes) (P0 : Proc γ) (k1 : Unit → Proc δ) (q r : Bytes) :
    Steps ⟨P0, (announce ks).bind k1, q, r⟩ ⟨P0, k1 (), q, r ++ (encSize (BitVec.ofNat 64 ks.length) ++ ks.flatten)⟩ := by
  unfold announce
  rw [Proc.bind_assoc]
  refine .head (.send1 ..) ?_
  rw [← List.append_assoc]
  exact steps_sendKeys ks _ k1 q _

/-- VAR or STDDEV with one byte unread on the way to server 1 and nine on the way to server 0, the first eight of which read as the size 1. Server 1
has one admissible submission. Both servers finish with one more use of the check point; nine zero bytes remain on the way to server 0. -/
theorem var_skew (fma std : Bool) {nbits : ℕ} (hb : nbits ≤ 24) {total0 total1 : ℕ} {s0 s1 : Bytes} {subs0 : List (Bytes × SnipRow)} {k : Bytes}
    {row : SnipRow} (h0 : VarStream total0 s0 subs0) (h1 : VarStream total1 s1 [(k, row)]) (hrow : varOk (1#64 <<< nbits) row = true)
    {x : ℤ} {uses pos : ℕ} {st0 st1 : SnipState} (hs0 : SnipOk x uses pos st0) (hs1 : SnipOk x uses pos st1)
    (coef : ℕ → ℤ) (raw0 raw1 : ℕ → ℕ → ℕ → U64) (ord : Map SnipRow → Map SnipRow) (ho : IsOrder ord) (s z : Byte) {t : Bytes}
    (ht : ∀ rest, rdSize.run (t ++ rest) = some (1#64, rest)) :
    ∃ a st0' st1' v pos', RunsQ [s] (t ++ [z]) (varOp0 fma std nbits total0 s0 coef raw0 st0) (varOp1 nbits total1 s1 coef raw1 st1 ord)
        (a, st0') (.noAns, st1') [v] (List.replicate 9 0#8) ∧ SnipOk x (uses + 1) pos' st0' ∧ SnipOk x (uses + 1) pos' st1' := by
  obtain ⟨-, -, hr0⟩ := h0.spec
  obtain ⟨-, hk1, hr1⟩ := h1.spec
  have hk : k.length = 32 := hk1 _ List.mem_cons_self
  have hrk : SnipRowOk varCircuit 2 row := hr1 _ List.mem_cons_self
  obtain ⟨rest0, h0⟩ := h0
  obtain ⟨rest1, h1⟩ := h1
  have hm : varCircuit.mulGates.length = 1 := rfl
  have i0 : varIntake 1 nbits total0 s0 = some (admit (varOk (1#64 <<< nbits)) subs0 []) := by
    unfold varIntake maxVal
    rw [if_pos (by omega), Option.bind_some, h0, Option.map_some]
  have i1 : varIntake 1 nbits total1 s1 = some [(k, row)] := by
    unfold varIntake maxVal
    rw [if_pos (by omega), Option.bind_some, h1, Option.map_some]
    simp [admit, hrow]
  have ho : ord [(k, row)] = [(k, row)] := List.perm_singleton.1 (ho _)
  unfold varOp0 varOp1
  simp only [checkVar_eq, Proc.ofOption, Proc.ret_bind', hm, i0, i1, ho]
  generalize hM : admit (varOk (1#64 <<< nbits)) subs0 [] = M
  have hMrow : ∀ k' r', M.lookup k' = some r' → SnipRowOk varCircuit 2 r' := by
    intro k' r' h
    rw [← hM, C34_first_admissible] at h
    exact hr0 _ (firstOf_mem h)
  -- the shifted key
  obtain ⟨u, r1, hu, hul, hr1l⟩ := split_list (z :: (encSize (BitVec.ofNat 64 1) ++ k)) (n := 32) (by simp [hk, encSize])
  have hr1l : r1.length = 9 := by rw [hr1l]; simp [hk, encSize]
  set row0 : SnipRow := match M.lookup u with | some r => r | none => ⟨[0#64, 0#64], zeroPacket 1⟩ with hrow0
  have hrow0ok : SnipRowOk varCircuit 2 row0 := by
    rw [hrow0]
    split
    · rename_i r h; exact hMrow _ _ h
    · exact ⟨rfl, zeroPacket_ok varCircuit⟩
  obtain ⟨sh0, sh1, hP, hl0, hl1, -⟩ := shareConvert_pair goodModulus (by decide) raw0 raw1 1 2 (varWidths nbits) row0.vals row.vals
    (by rw [hrow0ok.1]) (by rw [hrk.1]) rfl (by simp [varWidths]; omega)
  obtain ⟨bs0, st0', G0, f0, hb0, k0, c0, e0, g0⟩ := validate_alone varCircuit_ok hs0 false coef (ni := 2) (by decide) hrow0ok.2 (sh := sh0) (by omega)
  obtain ⟨bs1, st1', G1, f1, hb1, k1, c1, e1, g1⟩ := validate_alone varCircuit_ok hs1 true coef (ni := 2) (by decide) hrk.2 (sh := sh1) (by omega)
  -- the bytes left at each point
  obtain ⟨x1, y1, hx1, hx1l, hy1l⟩ := split_list (r1 ++ bs1) (n := 16) (by simp [hr1l, hb1])
  obtain ⟨x0, y0, hx0, hx0l, hy0l⟩ := split_list ([s] ++ bs0) (n := 16) (by simp [hb0])
  have hy1l : y1.length = 9 := by rw [hy1l]; simp [hr1l, hb1]
  have hy0l : y0.length = 1 := by rw [hy0l]; simp [hb0]
  obtain ⟨d0, hd0⟩ := rdCorShares_any y1 hx1l
  obtain ⟨d1, hd1⟩ := rdCorShares_any y0 hx0l
  rw [← hx1] at hd0
  rw [← hx0] at hd1
  obtain ⟨v0, hv0, hv0l⟩ := fmpzBytes_top (c0 d0)
  obtain ⟨x2, y2, hx2, hx2l, hy2l⟩ := split_list (y1 ++ fmpzBytes (f1 d1)) (n := 8) (by simp [hy1l])
  have hy2l : y2.length = 9 := by rw [hy2l]; simp [hy1l]
  obtain ⟨z0, hz0⟩ := fmpzsOf_one x2
  have hd2 := rdFmpzs_any (n := 1) (by decide) y2 (d := x2) (by omega)
  rw [← hx2, hz0] at hd2
  obtain ⟨z1, hz1⟩ := fmpzsOf_one (y0 ++ v0)
  have hd3 := rdFmpzs_any (n := 1) (by decide) [0#8] (d := y0 ++ v0) (by simp [hy0l, hv0l])
  rw [hz1, List.append_assoc, ← hv0] at hd3
  set valid := List.zipWith (· && ·) [(M.lookup u).isSome] (List.zipWith (addToZero intModulus) [f0 d0] [z0]) with hvalid
  have hvl : ∃ v, encBools valid = [v] := List.length_eq_one_iff.1 (by simp [encBools, hvalid])
  obtain ⟨v, hv⟩ := hvl
  have hf : (rdBools 1).run [0#8, v] = some ([false], [v]) := by simp [rdBools, Rd.run, unpackBit]
  have hzz : encFmpz 0 = some (List.replicate 8 0#8) := rfl
  obtain ⟨x3, y3, hx3, hx3l, hy3l⟩ := split_list (y2 ++ List.replicate 8 0#8) (n := 8) (by simp [hy2l])
  obtain ⟨x4, y4, hx4, hx4l, hy4l⟩ := split_list (y3 ++ List.replicate 8 0#8) (n := 8) (by simp)
  have hy4 : y4 = List.replicate 9 0#8 := by
    have e : y4 = ((y2 ++ List.replicate 8 0#8) ++ List.replicate 8 0#8).drop 16 := by
      rw [hx3, List.append_assoc, hx4, ← List.append_assoc, List.drop_left' (by simp [hx3l, hx4l])]
    rw [e, List.append_assoc, List.drop_append, hy2l, List.drop_eq_nil_of_le (by omega), List.nil_append, List.replicate_append_replicate, List.drop_replicate]
  refine ⟨(finish (numTrue valid) total0 (varAnswer fma std
    (fmod (leVal x3 + (accumulate 2 (pieces 2 1 sh0) valid).getD 0 0) intModulus)
    (fmod (leVal x4 + (accumulate 2 (pieces 2 1 sh0) valid).getD 1 0) intModulus) (numTrue valid))), st0', st1', v, pos + (varCircuit.resultZero.length + 1),
    ?_, k0, k1⟩
  intro γ δ κ0 κ1
  unfold snipOp0 snipOp1 listen
  simp only [Proc.bind_assoc]
  refine (steps_announceQ _ _ _ _ _).trans ?_
  have hflat : (t ++ [z]) ++ (encSize (BitVec.ofNat 64 (List.map (·.1) [(k, row)]).length) ++ (List.map (·.1) [(k, row)]).flatten) = t ++ (u ++ r1) := by
    rw [← hu]; simp
  rw [hflat]
  refine (steps_read0 rdSize _ _ _ (ht _) _ _ _).trans ?_
  have hkeys : recvKeys (1#64).toNat = (Rd.get pkLength .ret).toProc.bind fun k => .ret [k] := rfl
  rw [hkeys, Proc.bind_assoc]
  have hru : (Rd.get pkLength .ret).run (u ++ r1) = some (u, r1) := Reads.getRet (k := id) hul _
  refine (steps_read0 _ _ _ _ hru _ _ _).trans ?_
  have hrows1 : rows1 [(k, row)] [k] = some [row] := by simp [rows1, optAll]
  have hrows0 : rows0 varCircuit.mulGates.length M (fun _ => [0#64, 0#64]) [u] = [row0] := by
    rw [hrow0]
    rcases h : M.lookup u with _ | r <;> simp [rows0, h, hm]
  have hw : (varWidths nbits).length = 2 := rfl
  simp only [List.map_cons, List.map_nil]
  simp only [Proc.ret_bind', hw, hrows1, hrows0, Proc.ofOption, List.length_singleton, List.flatMap_cons, List.flatMap_nil, List.append_nil, List.map_cons,
    List.map_nil]
  refine (hP.runsQ (shareConvert_deaf ..) (shareConvert_deaf ..) _ _ _ _ _ _).trans ?_
  rw [e0, e1]
  simp only [Proc.bind_assoc, exch]
  refine .head (.send0 ..) (.head (.send1 ..) ?_)
  simp only [Proc.ret_bind']
  refine (steps_read0 _ _ _ _ hd0 _ _ _).trans ((steps_read1 _ _ _ _ hd1 _ _ _).trans ?_)
  rw [g0, g1]
  simp only [Proc.bind_assoc, exch]
  refine .head (.send0 ..) (.head (.send1 ..) ?_)
  simp only [Proc.ret_bind']
  refine (steps_read0 _ _ _ _ hd2 _ _ _).trans ((steps_read1 _ _ _ _ hd3 _ _ _).trans ?_)
  simp only [matched, List.map_cons, List.map_nil]
  refine .head (.send0 ..) ?_
  simp only [Proc.ret_bind']
  rw [← hvalid, hv]
  refine (steps_read1 _ _ _ _ hf _ _ _).trans ?_
  have hacc : accumulate 2 (pieces 2 1 sh1) (List.zipWith (fun a b => a && b) [false] (List.zipWith (addToZero intModulus) [f1 d1] [z1])) = [0, 0] := by
    simp [accumulate, pieces]
  simp only [hacc, List.getD_cons_zero, List.getD_cons_succ, hzz, Proc.putOpt]
  refine .head (.send1 ..) (.head (.send1 ..) ?_)
  simp only [Proc.ret_bind']
  have ha : rdFmpz.run (y2 ++ List.replicate 8 0#8 ++ List.replicate 8 0#8) = some ((leVal x3 : ℤ), y3 ++ List.replicate 8 0#8) := by
    rw [hx3, List.append_assoc]
    exact Reads.getRet (k := fun bs => (leVal bs : ℤ)) hx3l _
  have hb' : rdFmpz.run (y3 ++ List.replicate 8 0#8) = some ((leVal x4 : ℤ), List.replicate 9 0#8) := by
    rw [hx4, ← hy4]
    exact Reads.getRet (k := fun bs => (leVal bs : ℤ)) hx4l _
  refine (steps_read0 _ _ _ _ ha _ _ _).trans ((steps_read0 _ _ _ _ hb' _ _ _).trans ?_)
  exact .refl _

end Verif

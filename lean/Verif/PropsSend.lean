import Verif.LemmasSend
import Verif.PropsMax
import Verif.LemmasCut

/-!
# C74: a message is sent completely, or the failure is noticed
-/

namespace Verif

theorem fmpzBytes_ne (x : ℤ) : fmpzBytes x ≠ [] := by
  intro h
  have := congrArg List.length h
  simp [fmpzBytes] at this

theorem sendFmpz_parts {x : ℤ} (h : Fits x) : sendFmpz x = sendParts [fmpzBytes x] := by
  unfold sendFmpz
  have e := encAll_of_fits (xs := [x]) (by simpa using h)
  have : encFmpz x = some (fmpzBytes x) := by
    unfold encAll at e
    cases h' : encFmpz x with
    | none => rw [h'] at e; cases e
    | some b => rw [h', encAll] at e; simp at e; rw [e]
  rw [this]; rfl

theorem sendFmpz_map {xs : List ℤ} (h : ∀ x ∈ xs, Fits x) : xs.map sendFmpz = (xs.map fun x => [fmpzBytes x]).map sendParts := by
  rw [List.map_map]
  exact List.map_congr_left fun x hx => sendFmpz_parts (h x hx)

theorem flatten_singles (xs : List ℤ) : (xs.map fun x => [fmpzBytes x]).flatten = xs.map fmpzBytes := by
  induction xs with
  | nil => rfl
  | cons x xs ih => rw [List.map_cons, List.flatten_cons, ih]; rfl

theorem sendFmpzs_short {xs : List ℤ} (hl : xs.length ≤ maxFmpzBatch) (h : ∀ x ∈ xs, Fits x) : sendFmpzs xs = sendParts [xs.flatMap fmpzBytes] := by
  rw [sendFmpzs, dif_neg (by omega), encAll_of_fits h]; rfl

theorem flatMap_ne {xs : List ℤ} (h : xs ≠ []) : xs.flatMap fmpzBytes ≠ [] := by
  intro h'
  have := congrArg List.length h'
  rw [flatMap_fmpz_length] at this
  exact h (List.length_eq_zero_iff.1 (by simpa using this))

/-! ## What holds -/

/-- C74. One message (`send_bool`, `send_bool_batch`, `send_int`, `send_size`, `send_uint32`, `send_uint64`, `send_uint64_batch`, `send_ulong`,
`send_seed` are single calls). -/
theorem C74_single (bs : Bytes) (h : bs ≠ []) : SendsAll (posixSend bs) bs 1 ∧ Faithful (posixSend bs) bs := by
  rw [posixSend_parts]
  have h1 := sendParts_all (ps := [bs]) (by simpa using h)
  have h2 := sendParts_faithful (ps := [bs]) (by simpa using h)
  rw [show [bs].flatten = bs by simp] at h1 h2
  exact ⟨h1, h2⟩

/-- C74. Strings. -/
theorem C74_string (x : Bytes) (h : x ≠ []) : SendsAll (sendString x) (encString x).2 2 ∧ Faithful (sendString x) (encString x).2 := by
  have e : (encString x).2 = [encSize (BitVec.ofNat 64 x.length), x].flatten := by
    unfold encString
    rw [if_neg (by simpa using h)]
    simp
  have hne : ∀ q ∈ [encSize (BitVec.ofNat 64 x.length), x], q ≠ [] := by
    intro q hq
    rcases List.mem_cons.1 hq with rfl | hq
    · intro h'
      have := congrArg List.length h'
      simp [encSize] at this
    · rw [List.mem_singleton.1 hq]; exact h
  rw [e]
  exact ⟨sendParts_all hne, sendParts_faithful hne⟩

theorem sendPacket_parts (x : Packet) (h : ∀ y ∈ x.all, Fits y) : sendPacket x = sendParts (x.all.map fmpzBytes) := by
  have hm : ∀ y ∈ x.mulShares, Fits y := fun y hy => h y (by simp [Packet.all, hy])
  have hh : ∀ y ∈ x.hPoints, Fits y := fun y hy => h y (by simp [Packet.all, hy])
  unfold sendPacket sendTriple
  rw [sendFmpz_map hm, sendFmpz_map hh, sendFmpz_parts (h x.f0 (by simp [Packet.all])), sendFmpz_parts (h x.g0 (by simp [Packet.all])),
    sendFmpz_parts (h x.h0 (by simp [Packet.all])), sendFmpz_parts (h x.triple.A (by simp [Packet.all])),
    sendFmpz_parts (h x.triple.B (by simp [Packet.all])), sendFmpz_parts (h x.triple.C (by simp [Packet.all]))]
  have et : sendSeq [sendParts [fmpzBytes x.triple.A], sendParts [fmpzBytes x.triple.B], sendParts [fmpzBytes x.triple.C]] 0 =
      sendParts [fmpzBytes x.triple.A, fmpzBytes x.triple.B, fmpzBytes x.triple.C] :=
    sendSeq_parts [[fmpzBytes x.triple.A], [fmpzBytes x.triple.B], [fmpzBytes x.triple.C]] 0 (by simp)
  rw [et]
  have hs := sendSeq_parts ((x.mulShares.map fun x => [fmpzBytes x]) ++ [[fmpzBytes x.f0], [fmpzBytes x.g0], [fmpzBytes x.h0]] ++
    (x.hPoints.map fun x => [fmpzBytes x]) ++ [[fmpzBytes x.triple.A, fmpzBytes x.triple.B, fmpzBytes x.triple.C]]) 0 (by
      intro q hq
      simp only [List.mem_append, List.mem_map, List.mem_cons, List.not_mem_nil, or_false] at hq
      rcases hq with ((⟨_, _, rfl⟩ | rfl | rfl | rfl) | ⟨_, _, rfl⟩) | rfl <;> simp)
  rw [List.map_append, List.map_append, List.map_append, List.flatten_append, List.flatten_append, List.flatten_append, flatten_singles,
    flatten_singles] at hs
  refine hs.trans ?_
  unfold sendParts Packet.all
  congr 1
  simp

/-- C74. Client packets: one call of `send` for each number. -/
theorem C74_packet_partial (x : Packet) (h : ∀ y ∈ x.all, Fits y) : ∃ bs, encPacket x = some bs ∧
    SendsAll (sendPacket x) bs x.all.length ∧ Faithful (sendPacket x) bs := by
  have e := sendPacket_parts x h
  have hne : ∀ q ∈ x.all.map fmpzBytes, q ≠ [] := by
    intro q hq
    obtain ⟨y, -, rfl⟩ := List.mem_map.1 hq
    exact fmpzBytes_ne y
  have hfl : (x.all.map fmpzBytes).flatten = x.all.flatMap fmpzBytes := (List.flatMap_def ..).symm
  refine ⟨x.all.flatMap fmpzBytes, encAll_of_fits h, ?_, ?_⟩
  · have := sendParts_all hne
    rw [hfl, List.length_map, ← e] at this
    exact this
  · have := sendParts_faithful hne
    rw [hfl, ← e] at this
    exact this

/-- C74. Batches of at most a million field elements. -/
theorem C74_batch_partial (xs : List ℤ) (h0 : xs ≠ []) (hl : xs.length ≤ maxFmpzBatch) (h : ∀ x ∈ xs, Fits x) : ∃ bs, encFmpzs xs = some bs ∧
    SendsAll (sendFmpzs xs) bs 1 ∧ Faithful (sendFmpzs xs) bs := by
  refine ⟨_, encFmpzs_of_fits xs h, ?_⟩
  rw [sendFmpzs_short hl h]
  have hne : ∀ q ∈ [xs.flatMap fmpzBytes], q ≠ [] := by simpa using flatMap_ne h0
  have h1 := sendParts_all hne
  have h2 := sendParts_faithful hne
  rw [show [xs.flatMap fmpzBytes].flatten = xs.flatMap fmpzBytes by simp] at h1 h2
  exact ⟨h1, h2⟩

/-- C74. Batches of at most a million correction shares. -/
theorem C74_corshares_partial (cs : List CorShare) (h0 : cs ≠ []) (hl : cs.length ≤ maxFmpzBatch) (h : ∀ c ∈ cs, Fits c.D ∧ Fits c.E) :
    ∃ bs, encCorShares cs = some bs ∧ SendsAll (sendCorShares cs) bs 2 ∧ Faithful (sendCorShares cs) bs := by
  have hD : ∀ x ∈ cs.map (·.D), Fits x := by
    intro x hx; obtain ⟨c, hc, rfl⟩ := List.mem_map.1 hx; exact (h c hc).1
  have hE : ∀ x ∈ cs.map (·.E), Fits x := by
    intro x hx; obtain ⟨c, hc, rfl⟩ := List.mem_map.1 hx; exact (h c hc).2
  refine ⟨(cs.map (·.D)).flatMap fmpzBytes ++ (cs.map (·.E)).flatMap fmpzBytes, ?_, ?_⟩
  · simp only [encCorShares, encFmpzs_of_fits _ hD, encFmpzs_of_fits _ hE]
  · unfold sendCorShares
    rw [sendFmpzs_short (by simpa using hl) hD, sendFmpzs_short (by simpa using hl) hE]
    have e := sendSeq_parts [[(cs.map (·.D)).flatMap fmpzBytes], [(cs.map (·.E)).flatMap fmpzBytes]] 0 (by simp)
    simp only [List.map_cons, List.map_nil] at e
    rw [e]
    have hne : ∀ q ∈ [(cs.map (·.D)).flatMap fmpzBytes, (cs.map (·.E)).flatMap fmpzBytes], q ≠ [] := by
      intro q hq
      rcases List.mem_cons.1 hq with rfl | hq
      · exact flatMap_ne (by simpa using h0)
      · rw [List.mem_singleton.1 hq]; exact flatMap_ne (by simpa using h0)
    have h1 := sendParts_all hne
    have h2 := sendParts_faithful hne
    rw [show [(cs.map (·.D)).flatMap fmpzBytes, (cs.map (·.E)).flatMap fmpzBytes].flatten =
      (cs.map (·.D)).flatMap fmpzBytes ++ (cs.map (·.E)).flatMap fmpzBytes by simp] at h1 h2
    exact ⟨h1, h2⟩

theorem sendDaBitChunk_parts {ds : List DaBit} (hl : ds.length ≤ maxFmpzBatch) (h : ∀ d ∈ ds, Fits d.bp) :
    sendDaBitChunk ds = sendParts [(ds.map (·.bp)).flatMap fmpzBytes, encBools (ds.map (·.b2))] := by
  have hD : ∀ x ∈ ds.map (·.bp), Fits x := by
    intro x hx; obtain ⟨c, hc, rfl⟩ := List.mem_map.1 hx; exact h c hc
  unfold sendDaBitChunk
  rw [sendFmpzs_short (by simpa using hl) hD, posixSend_parts]
  exact sendSeq_parts [[(ds.map (·.bp)).flatMap fmpzBytes], [encBools (ds.map (·.b2))]] 0 (by simp)

theorem encBools_ne {bs : List Bool} (h : bs ≠ []) : encBools bs ≠ [] := by
  intro h'
  have := congrArg List.length h'
  have hp := List.length_pos_of_ne_nil h
  simp [encBools] at this
  omega

theorem dabit_parts_ne {ds : List DaBit} (h0 : ds ≠ []) : ∀ q ∈ [(ds.map (·.bp)).flatMap fmpzBytes, encBools (ds.map (·.b2))], q ≠ [] := by
  intro q hq
  rcases List.mem_cons.1 hq with rfl | hq
  · exact flatMap_ne (by simpa using h0)
  · rw [List.mem_singleton.1 hq]; exact encBools_ne (by simpa using h0)

/-- C74. Batches of at most 320000 daBits. -/
theorem C74_dabits_partial (ds : List DaBit) (h0 : ds ≠ []) (hl : ds.length ≤ maxDabitBatch) (h : ∀ d ∈ ds, Fits d.bp) :
    ∃ bs, encDaBits ds = some bs ∧ SendsAll (sendDaBits ds) bs 2 ∧ Faithful (sendDaBits ds) bs := by
  have hD : ∀ x ∈ ds.map (·.bp), Fits x := by
    intro x hx; obtain ⟨c, hc, rfl⟩ := List.mem_map.1 hx; exact h c hc
  have hlt : ds.length ≤ maxFmpzBatch := hl.trans (by decide)
  refine ⟨(ds.map (·.bp)).flatMap fmpzBytes ++ encBools (ds.map (·.b2)), ?_, ?_⟩
  · rw [encDaBits, dif_neg (by omega), encFmpzs_of_fits _ hD]; rfl
  · rw [sendDaBits, dif_neg (by omega), sendDaBitChunk_parts hlt h]
    have h1 := sendParts_all (dabit_parts_ne h0)
    have h2 := sendParts_faithful (dabit_parts_ne h0)
    rw [show [(ds.map (·.bp)).flatMap fmpzBytes, encBools (ds.map (·.b2))].flatten =
      (ds.map (·.bp)).flatMap fmpzBytes ++ encBools (ds.map (·.b2)) by simp] at h1 h2
    exact ⟨h1, h2⟩

theorem encFmpz_fits {x : ℤ} (h : Fits x) : encFmpz x = some (fmpzBytes x) := encFmpz_of_fits h

/-- C74. A single correction share. -/
theorem C74_corshare (c : CorShare) (h : Fits c.D ∧ Fits c.E) :
    ∃ bs, encCorShare c = some bs ∧ SendsAll (sendCorShare c) bs 2 ∧ Faithful (sendCorShare c) bs := by
  refine ⟨[c.D, c.E].flatMap fmpzBytes, encAll_of_fits (by simpa using h), ?_⟩
  unfold sendCorShare
  rw [sendFmpz_parts h.1, sendFmpz_parts h.2]
  have e := sendSeq_parts [[fmpzBytes c.D], [fmpzBytes c.E]] 0 (by simp)
  simp only [List.map_cons, List.map_nil] at e
  rw [e]
  have hne : ∀ q ∈ [fmpzBytes c.D, fmpzBytes c.E], q ≠ [] := by simp [fmpzBytes_ne]
  have h1 := sendParts_all hne
  have h2 := sendParts_faithful hne
  simp only [List.flatten_cons, List.flatten_nil, List.append_nil] at h1 h2
  simp only [List.flatMap_cons, List.flatMap_nil, List.append_nil]
  exact ⟨h1, h2⟩

/-- C74. A single multiplication triple. -/
theorem C74_triple (t : Triple) (h : Fits t.A ∧ Fits t.B ∧ Fits t.C) :
    ∃ bs, encTriple t = some bs ∧ SendsAll (sendTriple t) bs 3 ∧ Faithful (sendTriple t) bs := by
  refine ⟨[t.A, t.B, t.C].flatMap fmpzBytes, encAll_of_fits (by simpa using h), ?_⟩
  unfold sendTriple
  rw [sendFmpz_parts h.1, sendFmpz_parts h.2.1, sendFmpz_parts h.2.2]
  have e := sendSeq_parts [[fmpzBytes t.A], [fmpzBytes t.B], [fmpzBytes t.C]] 0 (by simp)
  simp only [List.map_cons, List.map_nil] at e
  rw [e]
  have hne : ∀ q ∈ [fmpzBytes t.A, fmpzBytes t.B, fmpzBytes t.C], q ≠ [] := by simp [fmpzBytes_ne]
  have h1 := sendParts_all hne
  have h2 := sendParts_faithful hne
  simp only [List.flatten_cons, List.flatten_nil, List.append_nil] at h1 h2
  simp only [List.flatMap_cons, List.flatMap_nil, List.append_nil]
  exact ⟨h1, h2⟩

/-- C74. A single daBit. -/
theorem C74_dabit (d : DaBit) (h : Fits d.bp) : ∃ bs, encDaBit d = some bs ∧ SendsAll (sendDaBit d) bs 2 ∧ Faithful (sendDaBit d) bs := by
  refine ⟨fmpzBytes d.bp ++ encBool d.b2, by rw [encDaBit, encFmpz_fits h]; rfl, ?_⟩
  unfold sendDaBit
  rw [sendFmpz_parts h, posixSend_parts]
  have e := sendSeq_parts [[fmpzBytes d.bp], [encBool d.b2]] 0 (by simp)
  simp only [List.map_cons, List.map_nil] at e
  rw [e]
  have hb : encBool d.b2 ≠ [] := by unfold encBool; simp
  have hne : ∀ q ∈ [fmpzBytes d.bp, encBool d.b2], q ≠ [] := by simp [fmpzBytes_ne, hb]
  have h1 := sendParts_all hne
  have h2 := sendParts_faithful hne
  simp only [List.flatten_cons, List.flatten_nil, List.append_nil] at h1 h2
  exact ⟨h1, h2⟩

/-- C74. Batches of at most a million edaBits. -/
theorem C74_edabits_partial (es : List EdaBit) (h0 : es ≠ []) (hb : ∀ e ∈ es, e.b ≠ []) (hl : es.length ≤ maxFmpzBatch) (h : ∀ e ∈ es, Fits e.r) :
    ∃ bs, encEdaBits es = some bs ∧ SendsAll (sendEdaBits es) bs 2 ∧ Faithful (sendEdaBits es) bs := by
  have hD : ∀ x ∈ es.map (·.r), Fits x := by
    intro x hx; obtain ⟨c, hc, rfl⟩ := List.mem_map.1 hx; exact h c hc
  refine ⟨(es.map (·.r)).flatMap fmpzBytes ++ encBools (es.flatMap (·.b)), by rw [encEdaBits, encFmpzs_of_fits _ hD]; rfl, ?_⟩
  unfold sendEdaBits
  rw [sendFmpzs_short (by simpa using hl) hD, posixSend_parts]
  have e := sendSeq_parts [[(es.map (·.r)).flatMap fmpzBytes], [encBools (es.flatMap (·.b))]] 0 (by simp)
  simp only [List.map_cons, List.map_nil] at e
  rw [e]
  have hf : es.flatMap (·.b) ≠ [] := by
    cases es with
    | nil => exact absurd rfl h0
    | cons x xs =>
      rw [List.flatMap_cons]
      exact fun h => hb x List.mem_cons_self (List.append_eq_nil_iff.1 h).1
  have hne : ∀ q ∈ [(es.map (·.r)).flatMap fmpzBytes, encBools (es.flatMap (·.b))], q ≠ [] := by
    intro q hq
    rcases List.mem_cons.1 hq with rfl | hq
    · exact flatMap_ne (by simpa using h0)
    · rw [List.mem_singleton.1 hq]; exact encBools_ne hf
  have h1 := sendParts_all hne
  have h2 := sendParts_faithful hne
  rw [show [(es.map (·.r)).flatMap fmpzBytes, encBools (es.flatMap (·.b))].flatten =
    (es.map (·.r)).flatMap fmpzBytes ++ encBools (es.flatMap (·.b)) by simp] at h1 h2
  exact ⟨h1, h2⟩

/-- Such values exist. -/
example : ∃ es : List EdaBit, es ≠ [] ∧ (∀ e ∈ es, e.b ≠ []) ∧ es.length ≤ maxFmpzBatch ∧ ∀ e ∈ es, Fits e.r :=
  ⟨[⟨7, [true, false]⟩], by simp, by simp, by decide, by simp [Fits]⟩

/-- C74. Batches of any size, if every call takes all it is given: one call per started million. -/
theorem C74_batch_sent (xs : List ℤ) (h0 : xs ≠ []) (h : ∀ x ∈ xs, Fits x) :
    SendsAll (sendFmpzs xs) (xs.flatMap fmpzBytes) ((xs.length - 1) / maxFmpzBatch + 1) := by
  induction hn : xs.length using Nat.strong_induction_on generalizing xs with
  | _ n ih =>
    have hM := maxFmpzBatch_pos
    by_cases hl : xs.length ≤ maxFmpzBatch
    · obtain ⟨bs, e, h1, -⟩ := C74_batch_partial xs h0 hl h
      rw [encFmpzs_of_fits xs h] at e
      cases e
      rw [show (n - 1) / maxFmpzBatch = 0 by rw [Nat.div_eq_zero_iff]; have := List.length_pos_of_ne_nil h0; omega]
      exact h1
    · rw [sendFmpzs, dif_pos (by omega)]
      have e1 := sendSum_all (f := sendOne (encAll encFmpz (xs.take maxFmpzBatch))) (bs := (xs.take maxFmpzBatch).flatMap fmpzBytes) (m := 1)
        (g := sendFmpzs (xs.drop maxFmpzBatch)) (by
          rw [encAll_of_fits fun x hx => h x (List.mem_of_mem_take hx)]
          have := sendParts_all (ps := [(xs.take maxFmpzBatch).flatMap fmpzBytes]) (by
            simpa using flatMap_ne (xs := xs.take maxFmpzBatch) (by rw [Ne, List.take_eq_nil_iff]; rintro (h' | h'); exacts [by omega, h0 h']))
          rwa [show [(xs.take maxFmpzBatch).flatMap fmpzBytes].flatten = (xs.take maxFmpzBatch).flatMap fmpzBytes by simp] at this)
        (ih (xs.drop maxFmpzBatch).length (by rw [List.length_drop]; omega) (xs.drop maxFmpzBatch) (by
          rw [Ne, List.drop_eq_nil_iff]; omega) (fun x hx => h x (List.mem_of_mem_drop hx)) rfl)
      rw [← List.flatMap_append, List.take_append_drop, List.length_drop] at e1
      have : 1 + ((xs.length - maxFmpzBatch - 1) / maxFmpzBatch + 1) = (n - 1) / maxFmpzBatch + 1 := by
        rw [← hn, show xs.length - 1 = (xs.length - maxFmpzBatch - 1) + maxFmpzBatch by omega, Nat.add_div_right _ hM]
        omega
      rwa [this] at e1

/-- C74. The records of MAX, FREQ and LINREG, if every call takes all it is given. -/
theorem C74_shares_sent (pk : Bytes) (row : List U64) (bits : List Bool) (r : LinRow) :
    SendsAll (sendMaxShare (pk, row)) (pk ++ encWords row) 2 ∧ SendsAll (sendFreqShare (pk, bits)) (pk ++ encBools bits) 2 ∧
    SendsAll (sendLinShare (pk, r)) (pk ++ encWords r.x ++ encU64 r.y ++ encWords r.x2 ++ encWords r.xy) 5 := by
  have h1 : ∀ bs : Bytes, SendsAll (posixSend bs) bs 1 := by
    intro bs es evs hl he
    obtain ⟨e, rfl⟩ := List.length_eq_one_iff.1 hl
    exact posixSend_full (he e (by simp)) evs
  exact ⟨sendSum_all (h1 _) (h1 _), sendSum_all (h1 _) (h1 _),
    sendSum_all (sendSum_all (sendSum_all (sendSum_all (h1 _) (h1 _)) (h1 _)) (h1 _)) (h1 _)⟩

theorem parts_count : ∀ (ps : List Bytes) (t : ℤ), (∀ q ∈ ps, q ≠ []) → ∀ evs, (∀ e ∈ evs, e ≠ .err) →
    sendSeq (ps.map posixSend) t evs = .waits ∨ ∃ w evs', sendSeq (ps.map posixSend) t evs = .done (t + w.length) w evs' ∧
      w.length ≤ ps.flatten.length ∧ (w.length = ps.flatten.length → w = ps.flatten)
  | [], t, _, evs, _ => by right; exact ⟨[], evs, by simp [sendSeq, Snd.retn], by simp, by simp⟩
  | q :: ps, t, h, [], _ => by left; rfl
  | q :: ps, t, h, .err :: evs, he => absurd rfl (he _ (List.mem_cons_self ..))
  | q :: ps, t, h, .upTo k :: evs, he => by
    have hq : 0 < q.length := List.length_pos_of_ne_nil (h q (List.mem_cons_self ..))
    rw [List.map_cons, sendSeq, Snd.bind]
    simp only [posixSend]
    rw [if_neg (by omega)]
    rcases parts_count ps (t + (min (k + 1) q.length : ℕ)) (fun q' hq' => h q' (List.mem_cons_of_mem _ hq')) evs
      (fun e' he' => he e' (List.mem_cons_of_mem _ he')) with h' | ⟨w, evs', h', hw, hc⟩
    · left; rw [h']
    · right
      refine ⟨q.take (k + 1) ++ w, evs', ?_, ?_, ?_⟩
      · rw [h']
        simp only [List.length_append, List.length_take, Nat.cast_add, add_assoc]
      · rw [List.flatten_cons, List.length_append, List.length_append, List.length_take]; omega
      · rw [List.flatten_cons, List.length_append, List.length_append, List.length_take]
        intro hl
        rw [hc (by omega), List.take_of_length_le (by omega)]

/-- C74. The result of `send_ClientPacket` is the number of bytes sent if no call fails, and only the result tells whether the packet is complete: no
caller compares it with the length. -/
theorem C74_packet_count (x : Packet) (h : ∀ y ∈ x.all, Fits y) : ∃ bs, encPacket x = some bs ∧ ∀ evs, (∀ e ∈ evs, e ≠ .err) →
    sendPacket x evs = .waits ∨ ∃ w evs', sendPacket x evs = .done w.length w evs' ∧ w.length ≤ bs.length ∧ (w.length = bs.length → w = bs) := by
  refine ⟨x.all.flatMap fmpzBytes, encAll_of_fits h, fun evs he => ?_⟩
  rw [sendPacket_parts x h, sendParts, List.flatMap_def]
  have := parts_count (x.all.map fmpzBytes) 0 (by
    intro q hq
    obtain ⟨z, -, rfl⟩ := List.mem_map.1 hq
    exact fmpzBytes_ne z) evs he
  simpa only [zero_add] using this

/-- C74. The client ends with a message if and only if the call it makes through `send_to_server` fails. -/
theorem C74_client (bs : Bytes) (e : SendEv) (evs : List SendEv) : (∃ w, sendToServer bs (e :: evs) = .exits w) ↔ e = .err := by
  cases e with
  | err => simp [sendToServer, Snd.bind, posixSend]
  | upTo k =>
    have : ¬ (((min (k + 1) bs.length : ℕ) : ℤ) < 0) := by omega
    simp only [sendToServer, Snd.bind, posixSend, if_neg this, Snd.retn]
    simp

/-- The messages `qs` through `send_to_server`, one after the other. -/
def toServers (qs : List Bytes) : Snd := sendSeq (qs.map sendToServer) 0

/-- C74. When the client ends because the call for `q` failed, it has sent exactly the messages before `q`, each of them completely if the calls for them
took all they were given. -/
theorem C74_client_sent (qs : List Bytes) (q : Bytes) (rest : List Bytes) (hq : ∀ x ∈ qs, x ≠ []) (es evs : List SendEv) (hl : es.length = qs.length)
    (he : ∀ e ∈ es, Full qs.flatten.length e) : toServers (qs ++ q :: rest) (es ++ .err :: evs) = .exits qs.flatten := by
  suffices H : ∀ (qs : List Bytes) (t : ℤ) (m : ℕ), (∀ x ∈ qs, x ≠ []) → qs.flatten.length ≤ m → ∀ es : List SendEv, es.length = qs.length →
      (∀ e ∈ es, Full m e) → sendSeq ((qs ++ q :: rest).map sendToServer) t (es ++ .err :: evs) = .exits qs.flatten from
    H qs 0 _ hq le_rfl es hl he
  clear hl he hq es qs
  intro qs
  induction qs with
  | nil =>
    intro t m _ _ es hl _
    rw [List.length_eq_zero_iff.1 hl]
    simp [sendSeq, sendToServer, Snd.bind, posixSend]
  | cons x qs ih =>
    intro t m h hm es hl he
    cases es with
    | nil => simp at hl
    | cons e es =>
      rw [List.flatten_cons, List.length_append] at hm
      have hx : 0 < x.length := List.length_pos_of_ne_nil (h x (List.mem_cons_self ..))
      have e1 : ∀ evs, sendToServer x (e :: evs) = .done x.length x evs := by
        intro evs
        rw [sendToServer, Snd.bind, posixSend_full ((he e (List.mem_cons_self ..)).mono (by omega))]
        simp only
        rw [if_neg (by omega)]
        simp [Snd.retn]
      rw [List.cons_append, List.map_cons, sendSeq, Snd.bind, List.cons_append, e1]
      simp only
      rw [if_neg (by omega), ih _ m (fun y hy => h y (List.mem_cons_of_mem _ hy)) (by omega) es (by simpa using hl)
        (fun e' he' => he e' (List.mem_cons_of_mem _ he'))]
      simp

example : toServers [[1#8, 2#8], [3#8]] [.upTo 9, .err] = .exits [1#8, 2#8] := by decide

/-! ## What does not -/

/-- C74 is false for a call that takes part of the message: the packet is sent with bytes missing, the result is the positive number of bytes sent, and
the receiver waits for bytes that never come, or takes them from the next message. -/
theorem C74_false_short (x : Packet) (h : ∀ y ∈ x.all, Fits y) (hN : x.hPoints.length = npow2 x.mulShares.length) (k : ℕ) (hk : k < 7)
    (es evs : List SendEv) (hl : es.length + 1 = x.all.length) (he : ∀ e ∈ es, Full (8 * x.all.length) e) :
    ∃ bs w, encPacket x = some bs ∧ sendPacket x (.upTo k :: es ++ evs) = .done w.length w evs ∧ 0 < w.length ∧ w.length + (7 - k) = bs.length ∧
      (rdPacket x.mulShares.length).run w = none := by
  have hlen : x.all.length = x.mulShares.length + npow2 x.mulShares.length + 6 := by
    simp [Packet.all, hN]; omega
  have hfl : (x.all.map fmpzBytes).flatten = x.all.flatMap fmpzBytes := (List.flatMap_def ..).symm
  have hs := sendPacket_parts x h
  cases hx : x.all with
  | nil => rw [hx] at hlen; simp at hlen
  | cons y ys =>
    have hys : (ys.map fmpzBytes).flatten = ys.flatMap fmpzBytes := (List.flatMap_def ..).symm
    have h8 : (fmpzBytes y).length = 8 := by simp [fmpzBytes]
    have hne : ∀ q ∈ ys.map fmpzBytes, q ≠ [] := by
      intro q hq
      obtain ⟨z, -, rfl⟩ := List.mem_map.1 hq
      exact fmpzBytes_ne z
    have ht : ((fmpzBytes y).take (k + 1)).length = k + 1 := by rw [List.length_take, h8]; omega
    have hrest := parts_all (ys.map fmpzBytes) (0 + (k + 1 : ℕ)) hne (by omega) (8 * x.all.length)
      (by rw [hys, flatMap_fmpz_length, hx, List.length_cons]; omega) es evs (by rw [hx, List.length_cons] at hl; simpa using hl) he
    have hw : ((fmpzBytes y).take (k + 1) ++ ys.flatMap fmpzBytes).length = k + 1 + 8 * ys.length := by
      rw [List.length_append, ht, flatMap_fmpz_length]
    refine ⟨x.all.flatMap fmpzBytes, (fmpzBytes y).take (k + 1) ++ ys.flatMap fmpzBytes, encAll_of_fits h, ?_, by omega, ?_, ?_⟩
    · rw [hs, hx, List.map_cons, sendParts, List.map_cons, sendSeq, Snd.bind, List.cons_append]
      simp only [posixSend]
      rw [Nat.min_eq_left (by omega), if_neg (by omega), hrest, hys]
      simp only [hw]
      congr 1
      rw [flatMap_fmpz_length]
      push_cast; ring
    · rw [hw, flatMap_fmpz_length, hx, List.length_cons]; omega
    · refine (takes_packet _ _).1 ?_
      rw [hw, ← hlen, hx, List.length_cons]; omega

/-- C74 is false for a failure in the first part of a batch of more than a million: the result is positive and the first million is missing. -/
theorem C74_false_batch (xs : List ℤ) (h : ∀ x ∈ xs, Fits x) (hl : maxFmpzBatch < xs.length) (es evs : List SendEv)
    (hes : es.length = (xs.length - maxFmpzBatch - 1) / maxFmpzBatch + 1) (he : ∀ e ∈ es, Full (8 * xs.length) e) :
    sendFmpzs xs (.err :: es ++ evs) = .done (8 * (xs.length - maxFmpzBatch : ℕ) - 1) ((xs.drop maxFmpzBatch).flatMap fmpzBytes) evs ∧
      0 < (8 * (xs.length - maxFmpzBatch : ℕ) - 1 : ℤ) := by
  have hd : xs.drop maxFmpzBatch ≠ [] := by rw [Ne, List.drop_eq_nil_iff]; omega
  have e := C74_batch_sent (xs.drop maxFmpzBatch) hd (fun x hx => h x (List.mem_of_mem_drop hx)) es evs (by rw [hes, List.length_drop])
    (fun e' he' => (he e' he').mono (by rw [flatMap_fmpz_length, List.length_drop]; omega))
  refine ⟨?_, by omega⟩
  rw [sendFmpzs, dif_pos hl, encAll_of_fits fun x hx => h x (List.mem_of_mem_take hx)]
  unfold sendSum Snd.bind
  have e1 : sendOne (some ((xs.take maxFmpzBatch).flatMap fmpzBytes)) (.err :: es ++ evs) = .done (-1) [] (es ++ evs) := by
    simp [sendOne, sendSeq, Snd.bind, posixSend, Snd.retn]
  rw [e1]
  simp only
  rw [e]
  simp only [Snd.retn, List.nil_append, List.append_nil]
  have hc : (-1 + ((xs.drop maxFmpzBatch).flatMap fmpzBytes).length : ℤ) = 8 * (xs.length - maxFmpzBatch : ℕ) - 1 := by
    rw [flatMap_fmpz_length, List.length_drop]
    generalize xs.length - maxFmpzBatch = z
    push_cast
    ring
  rw [hc]

/-- C74 is false for a failure at the start of a batch of more than 320000 daBits (here up to twice as many): the result is positive. -/
theorem C74_false_dabits (ds : List DaBit) (h : ∀ d ∈ ds, Fits d.bp) (hl : maxDabitBatch < ds.length) (hl2 : ds.length ≤ 2 * maxDabitBatch)
    (e e' : SendEv) (he : Full (9 * ds.length) e) (he' : Full (9 * ds.length) e') (evs : List SendEv) :
    ∃ bs w, encDaBits (ds.drop maxDabitBatch) = some bs ∧ sendDaBits ds (.err :: e :: e' :: evs) = .done w bs evs ∧ w = bs.length - 1 ∧ 0 < w := by
  have hd : ds.drop maxDabitBatch ≠ [] := by rw [Ne, List.drop_eq_nil_iff]; omega
  have hf : ∀ d ∈ ds.drop maxDabitBatch, Fits d.bp := fun d hd => h d (List.mem_of_mem_drop hd)
  obtain ⟨bs, eb, hs, -⟩ := C74_dabits_partial (ds.drop maxDabitBatch) hd (by rw [List.length_drop]; omega) hf
  have hlen : bs.length = 8 * (ds.length - maxDabitBatch) + (ds.length - maxDabitBatch + 7) / 8 := by
    rw [encDaBits, dif_neg (by rw [List.length_drop]; omega), encFmpzs_of_fits _ (by
      intro x hx; obtain ⟨c, hc, rfl⟩ := List.mem_map.1 hx; exact hf c hc)] at eb
    rw [← Option.some.inj eb, List.length_append, flatMap_fmpz_length, List.length_map, List.length_drop]
    simp
  have e2 := hs [e, e'] evs rfl (by
    intro z hz
    rcases List.mem_cons.1 hz with rfl | hz
    · exact he.mono (by omega)
    · rw [List.mem_singleton.1 hz]; exact he'.mono (by omega))
  refine ⟨bs, bs.length - 1, eb, ?_, rfl, by omega⟩
  have e1 : sendDaBitChunk (ds.take maxDabitBatch) (.err :: e :: e' :: evs) = .done (-1) [] ([e, e'] ++ evs) := by
    rw [sendDaBitChunk_parts (by rw [List.length_take]; exact (min_le_left _ _).trans (by decide)) (fun d hd => h d (List.mem_of_mem_take hd))]
    simp [sendParts, sendSeq, Snd.bind, posixSend, Snd.retn]
  rw [sendDaBits, dif_pos hl]
  unfold sendSum Snd.bind
  rw [e1]
  simp only
  rw [e2]
  simp only [Snd.retn, List.nil_append, List.append_nil]
  rw [show (-1 + bs.length : ℤ) = bs.length - 1 by ring]

/-- C74 is false in MAX and MIN: if the key of a submission cannot be sent, the row is sent without it, the result is positive, and the server waits. -/
theorem C74_false_max_share (B : ℕ) (pk : Bytes) (row : List U64) (hr : row.length = B + 1) (e : SendEv) (he : Full (8 * (B + 1)) e)
    (evs : List SendEv) :
    sendMaxShare (pk, row) (.err :: e :: evs) = .done (8 * (B + 1 : ℕ) - 1) (encWords row) evs ∧ 0 < (8 * (B + 1 : ℕ) - 1 : ℤ) ∧
      (rdMaxShare B).run (encWords row) = none := by
  have hlen : (encWords row).length = 8 * (B + 1) := by rw [encWords_length, hr]
  refine ⟨?_, by omega, ((takes_max B) _).1 (by rw [hlen]; unfold maxRec pkLength; omega)⟩
  have e1 : posixSend pk (.err :: e :: evs) = .done (-1) [] (e :: evs) := rfl
  unfold sendMaxShare sendSum Snd.bind
  simp only [e1]
  rw [posixSend_full (by rw [hlen]; exact he)]
  simp only [Snd.retn, List.nil_append, List.append_nil, hlen]
  rw [show (-1 + (8 * (B + 1) : ℕ) : ℤ) = 8 * (B + 1 : ℕ) - 1 by push_cast; ring]

/-- C74 is false at the servers: `send_out` never notices that a send has failed. -/
theorem C74_false_send_out (bs : Bytes) (h : bs ≠ []) (hb : bs.length < 2 ^ 64) : (∀ evs, sendOut bs (.err :: evs) = .done (2 ^ 64 - 1) [] evs) ∧
    ∀ evs w, sendOut bs evs ≠ .exits w := by
  have hp := List.length_pos_of_ne_nil h
  have herr : ∀ evs, sendOut bs (.err :: evs) = .done (2 ^ 64 - 1) [] evs := by
    intro evs
    simp only [sendOut, Snd.bind, posixSend]
    rw [if_neg (by decide)]
    rfl
  refine ⟨herr, fun evs w => ?_⟩
  cases evs with
  | nil => simp [sendOut, Snd.bind, posixSend]
  | cons e evs =>
    cases e with
    | err => rw [herr]; simp
    | upTo k =>
      have hr : (BitVec.ofInt 64 ((min (k + 1) bs.length : ℕ) : ℤ)).toNat = min (k + 1) bs.length := by
        rw [BitVec.ofInt_natCast, BitVec.toNat_ofNat, Nat.mod_eq_of_lt (by omega)]
      simp only [sendOut, Snd.bind, posixSend]
      rw [if_neg (by rw [BitVec.le_def, hr]; simp; omega)]
      simp [Snd.retn]

theorem sendOut_full {bs : Bytes} (h : bs ≠ []) (hb : bs.length < 2 ^ 64) {e : SendEv} (he : Full bs.length e) (evs : List SendEv) :
    sendOut bs (e :: evs) = .done bs.length bs evs := by
  have hp := List.length_pos_of_ne_nil h
  have hr : (BitVec.ofInt 64 (bs.length : ℤ)).toNat = bs.length := by
    rw [BitVec.ofInt_natCast, BitVec.toNat_ofNat, Nat.mod_eq_of_lt hb]
  simp only [sendOut, Snd.bind]
  rw [posixSend_full he]
  simp only
  rw [if_neg (by rw [BitVec.le_def, hr]; simp; omega)]
  simp only [Snd.retn, hr, List.append_nil]

theorem sendOutKeys_full : ∀ (ks : List Bytes) (es evs : List SendEv), es.length = ks.length → (∀ k ∈ ks, k.length = pkLength) →
    (∀ e ∈ es, Full pkLength e) → sendOutKeys ks (es ++ evs) = .done 0 ks.flatten evs
  | [], es, evs, hl, _, _ => by rw [List.length_eq_zero_iff.1 hl]; rfl
  | k :: ks, [], evs, hl, _, _ => by simp at hl
  | k :: ks, e :: es, evs, hl, hk, he => by
    have h := hk k (List.mem_cons_self ..)
    have hne : k ≠ [] := by rintro rfl; simp [pkLength] at h
    rw [sendOutKeys, Snd.bind, List.cons_append, sendOut_full hne (by rw [h]; decide) (by rw [h]; exact he e (List.mem_cons_self ..))]
    simp only
    rw [sendOutKeys_full ks es evs (by simpa using hl) (fun k' hk' => hk k' (List.mem_cons_of_mem _ hk')) (fun e' he' => he e' (List.mem_cons_of_mem _ he'))]
    rfl

theorem sendOutKeys_app (ks : List Bytes) : ∀ (js : List Bytes) (es evs : List SendEv), es.length = js.length → (∀ k ∈ js, k.length = pkLength) →
    (∀ e ∈ es, Full pkLength e) → ∀ w evs', sendOutKeys ks evs = .done 0 w evs' →
      sendOutKeys (js ++ ks) (es ++ evs) = .done 0 (js.flatten ++ w) evs'
  | [], es, evs, hl, _, _, w, evs', h => by rw [List.length_eq_zero_iff.1 hl]; simpa using h
  | k :: js, [], evs, hl, _, _, _, _, _ => by simp at hl
  | k :: js, e :: es, evs, hl, hk, he, w, evs', h => by
    have h' := hk k (List.mem_cons_self ..)
    have hne : k ≠ [] := by rintro rfl; simp [pkLength] at h'
    rw [List.cons_append, sendOutKeys, Snd.bind, List.cons_append, sendOut_full hne (by rw [h']; decide) (by rw [h']; exact he e (List.mem_cons_self ..))]
    simp only
    rw [sendOutKeys_app ks js es evs (by simpa using hl) (fun k' hk' => hk k' (List.mem_cons_of_mem _ hk')) (fun e' he' => he e' (List.mem_cons_of_mem _ he'))
      w evs' h]
    simp

/-- C74 is false when server 1 sends the keys it accepts: a key that cannot be sent is skipped, the others follow, and the keys that server 0 reads from
there on are those of other submissions, until it waits for bytes that never come. -/
theorem C74_false_keys (js : List Bytes) (k : Bytes) (ks : List Bytes) (h : ∀ k' ∈ js ++ k :: ks, k'.length = pkLength) (es es' evs : List SendEv)
    (hl : es.length = js.length) (hl' : es'.length = ks.length) (he : ∀ e ∈ es ++ es', Full pkLength e) :
    sendOutKeys (js ++ k :: ks) (es ++ .err :: es' ++ evs) = .done 0 (js ++ ks).flatten evs ∧
      ((Rd.get pkLength .ret).rep (js ++ k :: ks).length).run (js ++ ks).flatten = none := by
  have hk := h k (by simp)
  refine ⟨?_, (((Takes.get (n := pkLength) (m := 0) (P := fun _ => True) (fun bs _ => Takes.ret trivial)).rep _) _).1 ?_⟩
  swap
  · have : (js ++ ks).flatten.length = (js ++ ks).length * pkLength := by
      rw [List.length_flatten, List.map_congr_left (g := fun _ => pkLength) (fun k' hk' => h k' (by
        rcases List.mem_append.1 hk' with h' | h' <;> simp [h']))]
      simp
    rw [this, List.length_append, List.length_append, List.length_cons]
    unfold pkLength
    omega
  rw [List.flatten_append]
  have hne : k ≠ [] := by rintro rfl; simp [pkLength] at hk
  rw [List.append_assoc]
  refine sendOutKeys_app _ js es _ hl (fun k' hk' => h k' (by simp [hk'])) (fun e h' => he e (by simp [h'])) _ _ ?_
  rw [sendOutKeys, Snd.bind, List.cons_append, (C74_false_send_out k hne (by rw [hk]; decide)).1]
  simp only
  rw [sendOutKeys_full ks es' evs hl' (fun k' hk' => h k' (by simp [hk'])) (fun e h' => he e (by simp [h']))]
  rfl

/-! ## Examples -/

example : ∃ x : Packet, (∀ y ∈ x.all, Fits y) ∧ x.hPoints.length = npow2 x.mulShares.length ∧ x.all.length = 9 ∧
    ∃ es : List SendEv, es.length + 1 = x.all.length ∧ ∀ e ∈ es, Full (8 * x.all.length) e :=
  ⟨⟨[1], 2, 3, 4, [5, 6], ⟨7, 8, 9⟩⟩, by unfold Fits; decide, by decide, by decide, List.replicate 8 (.upTo 80), by decide, by
    intro e he
    rw [List.eq_of_mem_replicate he]
    exact ⟨80, rfl, by decide⟩⟩

example : ∃ xs : List ℤ, (∀ x ∈ xs, Fits x) ∧ maxFmpzBatch < xs.length ∧ ∃ es : List SendEv, es.length = (xs.length - maxFmpzBatch - 1) / maxFmpzBatch + 1 ∧
    ∀ e ∈ es, Full (8 * xs.length) e :=
  ⟨List.replicate 1000001 5, by
    intro x hx; rw [List.eq_of_mem_replicate hx]; unfold Fits; decide, by rw [List.length_replicate]; decide, [.upTo 8000008], by
    rw [List.length_replicate]; decide, by
    intro e he
    rw [List.mem_singleton.1 he, List.length_replicate]
    exact ⟨_, rfl, by decide⟩⟩

example : Full (8 * (2 + 1)) (.upTo 23) := ⟨23, rfl, by decide⟩

example : sendMaxShare (List.replicate 32 1#8, [1#64, 2#64, 3#64]) [.err, .upTo 23] = .done 23 (encWords [1#64, 2#64, 3#64]) [] :=
  (C74_false_max_share 2 _ _ rfl _ ⟨23, rfl, by decide⟩ []).1

example : sendOut [1#8] [.err] = .done (2 ^ 64 - 1) [] [] := (C74_false_send_out [1#8] (by decide) (by decide)).1 []

example : sendToServer [1#8] [.err] = .exits [] := rfl

end Verif

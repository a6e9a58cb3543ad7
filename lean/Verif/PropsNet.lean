import Verif.LemmasNet
import Verif.LemmasPrime

/-!
# C13, C14, C15: messages round-trip

`Reads r bs a` (specification): the reader applied to a stream that starts with `bs` returns `a` and leaves exactly the
rest of the stream, whatever the rest is.
-/

namespace Verif

/-! ## C13 -/

/-- C13. Scalars, bit vectors and word batches are received as sent, and the receive consumes exactly the bytes
sent. -/
theorem C13_scalars_roundtrip :
    (∀ b, Reads rdBool (encBool b) b) ∧
    (∀ x : List Bool, Reads (rdBools x.length) (encBools x) x) ∧
    (∀ x : BitVec 32, Reads rdU32 (encU32 x) x) ∧
    (∀ x : U64, Reads rdU64 (encU64 x) x) ∧
    (∀ xs : List U64, Reads (rdWords xs.length) (encWords xs) xs) :=
  ⟨reads_bool, reads_bools, reads_u32, reads_u64, reads_words⟩

/-- C13. A `size_t` arrives modulo `2^32`, so unchanged exactly when it is below `2^32`. -/
theorem C13_size_roundtrip (x : U64) :
    Reads rdSize (encSize x) (BitVec.ofNat 64 (x.toNat % 2 ^ 32)) ∧
    (Reads rdSize (encSize x) x ↔ x.toNat < 2 ^ 32) := by
  refine ⟨reads_size x, ⟨fun h => ?_, fun h => ?_⟩⟩
  · have h1 := h []
    rw [reads_size x []] at h1
    injection h1 with h1
    injection h1 with h1
    have := congrArg BitVec.toNat h1
    rw [BitVec.toNat_ofNat] at this
    have hlt := Nat.mod_lt x.toNat (by norm_num : 0 < 2 ^ 32)
    omega
  · have := reads_size x
    rw [Nat.mod_eq_of_lt h, BitVec.ofNat_toNat, BitVec.setWidth_eq] at this
    exact this

/-- C13. Number of bytes sent: what the `int` results report. -/
theorem C13_lengths (b : Bool) (x : List Bool) (u : BitVec 32) (w : U64) (ws : List U64) :
    (encBool b).length = 1 ∧ (encBools x).length = (x.length + 7) / 8 ∧ (encU32 u).length = 4 ∧
    (encU64 w).length = 8 ∧ (encSize w).length = 8 ∧ (encWords ws).length = 8 * ws.length := by
  refine ⟨rfl, by simp, by simp [encU32], by simp [encU64], by simp [encSize], by simp⟩

/-- Two messages in a row are received in order: round trips compose. -/
theorem C13_sequence {α β : Type} {r : Rd α} {s : Rd β} {bs cs : Bytes} {a : α} {b : β}
    (h1 : Reads r bs a) (h2 : Reads s cs b) :
    Reads (r.bind fun x => s.bind fun y => Rd.ret (x, y)) (bs ++ cs) (a, b) :=
  h1.bind (h2.bindRet (f := fun y => (a, y)))

/-- Non-vacuity: the bytes of concrete messages. -/
example : encU32 0x01020304#32 = [1#8, 2#8, 3#8, 4#8] := by decide
example : encBools [true, false, true, false, false, false, false, false, true] = [5#8, 1#8] := by decide
example : encU64 0x0102030405060708#64 = [1#8, 2#8, 3#8, 4#8, 5#8, 6#8, 7#8, 8#8] := by decide
example : encWords [0x0102030405060708#64] = [8#8, 7#8, 6#8, 5#8, 4#8, 3#8, 2#8, 1#8] := by decide

/-! ## C14 -/

/-- Every field element fits one limb. -/
theorem fits_of_canon {x : ℤ} (h : Canon x intModulus) : Fits x := by
  obtain ⟨h0, h1⟩ := h
  refine ⟨h0, lt_trans h1 ?_⟩
  decide

/-- C14. Field elements, and batches of them of any size (also across the chunk boundary of one million). The bytes of a
batch are the bytes of the elements in order, so a batch can be received element by element and vice versa. -/
theorem C14_fmpz_roundtrip (xs : List ℤ) (h : ∀ x ∈ xs, Fits x) :
    ∃ bs, encFmpzs xs = some bs ∧ encAll encFmpz xs = some bs ∧ bs.length = 8 * xs.length ∧
      Reads (rdFmpzs xs.length) bs xs ∧ Reads (rdFmpz.rep xs.length) bs xs :=
  ⟨xs.flatMap fmpzBytes, encFmpzs_of_fits xs h, encAll_of_fits h, flatMap_fmpz_length xs, reads_fmpzs xs h,
    reads_fmpz_rep xs h⟩

/-- C14. A number that does not fit a limb is never received as sent: either the send is undefined, or (negative
numbers) the absolute value arrives. -/
theorem C14_fmpz_unfit (x : ℤ) (h : ¬ Fits x) :
    encFmpz x = none ∨ ∃ bs, encFmpz x = some bs ∧ Reads rdFmpz bs x.natAbs ∧ (x.natAbs : ℤ) ≠ x := by
  by_cases hx : x.natAbs < 2 ^ 64
  · right
    have hf : Fits (x.natAbs : ℤ) := ⟨by positivity, by exact_mod_cast hx⟩
    refine ⟨fmpzBytes (x.natAbs : ℤ), ?_, reads_fmpz hf, ?_⟩
    · unfold encFmpz fmpzBytes
      rw [if_pos hx, Int.toNat_natCast]
    · intro he
      apply h
      rw [← he]; exact hf
  · left; unfold encFmpz; rw [if_neg hx]

private theorem zip_cor (cs : List CorShare) : List.zipWith CorShare.mk (cs.map (·.D)) (cs.map (·.E)) = cs := by
  induction cs with
  | nil => rfl
  | cons c cs ih => simp [ih]

private theorem zip_dabit (ds : List DaBit) : List.zipWith DaBit.mk (ds.map (·.bp)) (ds.map (·.b2)) = ds := by
  induction ds with
  | nil => rfl
  | cons c cs ih => simp [ih]

private theorem zip_eda (es : List EdaBit) : List.zipWith EdaBit.mk (es.map (·.r)) (es.map (·.b)) = es := by
  induction es with
  | nil => rfl
  | cons c cs ih => simp [ih]

/-- C14. A batch of correction shares of any size. -/
theorem C14_corshares_roundtrip (cs : List CorShare) (h : ∀ c ∈ cs, Fits c.D ∧ Fits c.E) :
    ∃ bs, encCorShares cs = some bs ∧ bs.length = 16 * cs.length ∧ Reads (rdCorShares cs.length) bs cs := by
  have hD : ∀ x ∈ cs.map (·.D), Fits x := by
    intro x hx; obtain ⟨c, hc, rfl⟩ := List.mem_map.1 hx; exact (h c hc).1
  have hE : ∀ x ∈ cs.map (·.E), Fits x := by
    intro x hx; obtain ⟨c, hc, rfl⟩ := List.mem_map.1 hx; exact (h c hc).2
  refine ⟨(cs.map (·.D)).flatMap fmpzBytes ++ (cs.map (·.E)).flatMap fmpzBytes, ?_, ?_, ?_⟩
  · simp only [encCorShares, encFmpzs_of_fits _ hD, encFmpzs_of_fits _ hE]
  · rw [List.length_append, flatMap_fmpz_length, flatMap_fmpz_length]; simp; omega
  · have h1 := reads_fmpzs _ hD
    have h2 := reads_fmpzs _ hE
    rw [List.length_map] at h1 h2
    have h3 := h1.bind (f := fun ds => (rdFmpzs cs.length).bind fun es => Rd.ret (List.zipWith CorShare.mk ds es))
      (h2.bindRet (f := fun es => List.zipWith CorShare.mk (cs.map (·.D)) es))
    rw [zip_cor] at h3
    exact h3

/-- C14. A single correction share. -/
theorem C14_corshare_roundtrip (c : CorShare) (hD : Fits c.D) (hE : Fits c.E) :
    ∃ bs, encCorShare c = some bs ∧ bs.length = 16 ∧ Reads rdCorShare bs c := by
  refine ⟨[c.D, c.E].flatMap fmpzBytes, encAll_of_fits (by simp [hD, hE]), by simp, ?_⟩
  have := (reads_fmpz hD).bind (f := fun d => rdFmpz.bind fun e => Rd.ret (CorShare.mk d e))
    ((reads_fmpz hE).bindRet (f := fun e => CorShare.mk c.D e))
  have e : [c.D, c.E].flatMap fmpzBytes = fmpzBytes c.D ++ fmpzBytes c.E := by simp
  rw [e]; exact this

/-- The bytes of a Beaver triple. -/
theorem reads_triple (t : Triple) (hA : Fits t.A) (hB : Fits t.B) (hC : Fits t.C) :
    Reads rdTriple ([t.A, t.B, t.C].flatMap fmpzBytes) t := by
  have := (reads_fmpz hA).bind (f := fun a => rdFmpz.bind fun b => rdFmpz.bind fun c => Rd.ret (Triple.mk a b c))
    ((reads_fmpz hB).bind (f := fun b => rdFmpz.bind fun c => Rd.ret (Triple.mk t.A b c))
      ((reads_fmpz hC).bindRet (f := fun c => Triple.mk t.A t.B c)))
  have e : [t.A, t.B, t.C].flatMap fmpzBytes = fmpzBytes t.A ++ (fmpzBytes t.B ++ fmpzBytes t.C) := by simp
  rw [e]; exact this

/-- C14. Beaver triples. -/
theorem C14_triple_roundtrip (t : Triple) (hA : Fits t.A) (hB : Fits t.B) (hC : Fits t.C) :
    ∃ bs, encTriple t = some bs ∧ bs.length = 24 ∧ Reads rdTriple bs t :=
  ⟨[t.A, t.B, t.C].flatMap fmpzBytes, encAll_of_fits (by simp [hA, hB, hC]), by simp, reads_triple t hA hB hC⟩

/-- All numbers of a packet. -/
def Packet.all (x : Packet) : List ℤ :=
  x.mulShares ++ [x.f0, x.g0, x.h0] ++ x.hPoints ++ [x.triple.A, x.triple.B, x.triple.C]

/-- C14. Client packets, for every number of multiplication gates. -/
theorem C14_packet_roundtrip (x : Packet) (h : ∀ y ∈ x.all, Fits y)
    (hN : x.hPoints.length = npow2 x.mulShares.length) :
    ∃ bs, encPacket x = some bs ∧ bs.length = 8 * (x.mulShares.length + npow2 x.mulShares.length + 6) ∧
      Reads (rdPacket x.mulShares.length) bs x := by
  refine ⟨x.all.flatMap fmpzBytes, encAll_of_fits h, ?_, ?_⟩
  · rw [flatMap_fmpz_length]; simp [Packet.all, hN]; omega
  · have hm : ∀ y ∈ x.mulShares, Fits y := fun y hy => h y (by simp [Packet.all, hy])
    have hh : ∀ y ∈ x.hPoints, Fits y := fun y hy => h y (by simp [Packet.all, hy])
    have hf := h x.f0 (by simp [Packet.all])
    have hg := h x.g0 (by simp [Packet.all])
    have h0 := h x.h0 (by simp [Packet.all])
    have ht := reads_triple x.triple (h _ (by simp [Packet.all])) (h _ (by simp [Packet.all])) (h _ (by simp [Packet.all]))
    have hhr := reads_fmpz_rep _ hh
    rw [hN] at hhr
    have := (reads_fmpz_rep _ hm).bind
      (f := fun ms => rdFmpz.bind fun f0 => rdFmpz.bind fun g0 => rdFmpz.bind fun h0 =>
        (rdFmpz.rep (npow2 x.mulShares.length)).bind fun hs => rdTriple.bind fun t => Rd.ret (Packet.mk ms f0 g0 h0 hs t))
      ((reads_fmpz hf).bind
        (f := fun f0 => rdFmpz.bind fun g0 => rdFmpz.bind fun h0 =>
          (rdFmpz.rep (npow2 x.mulShares.length)).bind fun hs => rdTriple.bind fun t =>
            Rd.ret (Packet.mk x.mulShares f0 g0 h0 hs t))
        ((reads_fmpz hg).bind
          (f := fun g0 => rdFmpz.bind fun h0 =>
            (rdFmpz.rep (npow2 x.mulShares.length)).bind fun hs => rdTriple.bind fun t =>
              Rd.ret (Packet.mk x.mulShares x.f0 g0 h0 hs t))
          ((reads_fmpz h0).bind
            (f := fun h0 => (rdFmpz.rep (npow2 x.mulShares.length)).bind fun hs => rdTriple.bind fun t =>
              Rd.ret (Packet.mk x.mulShares x.f0 x.g0 h0 hs t))
            (hhr.bind
              (f := fun hs => rdTriple.bind fun t => Rd.ret (Packet.mk x.mulShares x.f0 x.g0 x.h0 hs t))
              (ht.bindRet (f := fun t => Packet.mk x.mulShares x.f0 x.g0 x.h0 x.hPoints t))))))
    unfold rdPacket
    simpa [Packet.all, List.flatMap_append] using this

/-- C14. Boolean triples. -/
theorem C14_btriple_roundtrip (t : BTriple) : Reads rdBTriple (encBTriple t) t := by
  have := (reads_bools [t.a, t.b, t.c]).bindRet
    (f := fun l : List Bool => BTriple.mk (l.getD 0 false) (l.getD 1 false) (l.getD 2 false))
  exact this

/-- C14. A single daBit. -/
theorem C14_dabit_roundtrip (d : DaBit) (h : Fits d.bp) :
    ∃ bs, encDaBit d = some bs ∧ bs.length = 9 ∧ Reads rdDaBit bs d := by
  refine ⟨fmpzBytes d.bp ++ encBool d.b2, by simp [encDaBit, encFmpz_of_fits h], by simp [encBool], ?_⟩
  exact (reads_fmpz h).bind (f := fun x => rdBool.bind fun b => Rd.ret (DaBit.mk x b))
    ((reads_bool d.b2).bindRet (f := fun b => DaBit.mk d.bp b))

/-- C14. A single edaBit, of any width. -/
theorem C14_edabit_roundtrip (e : EdaBit) (h : Fits e.r) :
    ∃ bs, encEdaBit e = some bs ∧ bs.length = 8 + (e.b.length + 7) / 8 ∧ Reads (rdEdaBit e.b.length) bs e := by
  refine ⟨fmpzBytes e.r ++ encBools e.b, by simp [encEdaBit, encFmpz_of_fits h], by simp, ?_⟩
  exact (reads_fmpz h).bind (f := fun x => (rdBools e.b.length).bind fun b => Rd.ret (EdaBit.mk x b))
    ((reads_bools e.b).bindRet (f := fun b => EdaBit.mk e.r b))

/-- The bytes of one chunk of daBits. -/
def daChunkBytes (ds : List DaBit) : Bytes := (ds.map (·.bp)).flatMap fmpzBytes ++ encBools (ds.map (·.b2))

theorem enc_dachunk (ds : List DaBit) (h : ∀ d ∈ ds, Fits d.bp) :
    (encFmpzs (ds.map (·.bp))).map (· ++ encBools (ds.map (·.b2))) = some (daChunkBytes ds) := by
  rw [encFmpzs_of_fits _ (by intro x hx; obtain ⟨c, hc, rfl⟩ := List.mem_map.1 hx; exact h c hc)]
  rfl

theorem reads_dachunk (ds : List DaBit) (h : ∀ d ∈ ds, Fits d.bp) :
    Reads (rdDaBitChunk ds.length) (daChunkBytes ds) ds := by
  have h1 := reads_fmpzs (ds.map (·.bp)) (by intro x hx; obtain ⟨c, hc, rfl⟩ := List.mem_map.1 hx; exact h c hc)
  have h2 := reads_bools (ds.map (·.b2))
  rw [List.length_map] at h1 h2
  have h3 := h1.bind (f := fun xs => (rdBools ds.length).bind fun bs => Rd.ret (List.zipWith DaBit.mk xs bs))
    (h2.bindRet (f := fun bs => List.zipWith DaBit.mk (ds.map (·.bp)) bs))
  rw [zip_dabit] at h3
  exact h3

theorem rdDaBits_eq (n : ℕ) : rdDaBits n = if maxDabitBatch < n then
    (rdDaBitChunk maxDabitBatch).bind fun a => (rdDaBits (n - maxDabitBatch)).bind fun b => .ret (a ++ b)
  else rdDaBitChunk n := by
  rw [rdDaBits]; rfl

theorem encDaBits_eq (ds : List DaBit) : encDaBits ds = if maxDabitBatch < ds.length then
    match (encFmpzs ((ds.take maxDabitBatch).map (·.bp))).map (· ++ encBools ((ds.take maxDabitBatch).map (·.b2))),
      encDaBits (ds.drop maxDabitBatch) with
    | some a, some b => some (a ++ b)
    | _, _ => none
  else (encFmpzs (ds.map (·.bp))).map (· ++ encBools (ds.map (·.b2))) := by
  rw [encDaBits]; rfl

private theorem dabits_aux (M : ℕ) (hM : 0 < M) (rd : ℕ → Rd (List DaBit)) (enc : List DaBit → Option Bytes)
    (hrd : ∀ n, rd n = if M < n then
      (rdDaBitChunk M).bind fun a => (rd (n - M)).bind fun b => .ret (a ++ b) else rdDaBitChunk n)
    (henc : ∀ ds, enc ds = if M < ds.length then
      match (encFmpzs ((ds.take M).map (·.bp))).map (· ++ encBools ((ds.take M).map (·.b2))), enc (ds.drop M) with
      | some a, some b => some (a ++ b)
      | _, _ => none
    else (encFmpzs (ds.map (·.bp))).map (· ++ encBools (ds.map (·.b2))))
    (ds : List DaBit) (h : ∀ d ∈ ds, Fits d.bp) :
    ∃ bs, enc ds = some bs ∧ Reads (rd ds.length) bs ds := by
  induction hn : ds.length using Nat.strong_induction_on generalizing ds with
  | _ n ih =>
    subst hn
    rw [hrd, henc]
    by_cases hlt : M < ds.length
    · rw [if_pos hlt, if_pos hlt]
      obtain ⟨bs, h1, h2⟩ := ih (ds.drop M).length (by simp; omega) (ds.drop M)
        (fun d hd => h d (List.mem_of_mem_drop hd)) rfl
      have ht : ∀ d ∈ ds.take M, Fits d.bp := fun d hd => h d (List.mem_of_mem_take hd)
      have hl : (ds.take M).length = M := by simp; omega
      have hc := reads_dachunk (ds.take M) ht
      rw [hl] at hc
      rw [enc_dachunk _ ht, h1]
      refine ⟨_, rfl, ?_⟩
      have hlen : (ds.drop M).length = ds.length - M := by simp
      rw [hlen] at h2
      have h3 := hc.bind (f := fun a => (rd (ds.length - M)).bind fun b => Rd.ret (a ++ b))
        (h2.bindRet (f := fun b => ds.take M ++ b))
      rw [List.take_append_drop] at h3
      exact h3
    · rw [if_neg hlt, if_neg hlt]
      exact ⟨_, enc_dachunk ds h, reads_dachunk ds h⟩

/-- C14. A batch of daBits of any size (also across the chunk boundary of 320000). -/
theorem C14_dabits_roundtrip (ds : List DaBit) (h : ∀ d ∈ ds, Fits d.bp) :
    ∃ bs, encDaBits ds = some bs ∧ Reads (rdDaBits ds.length) bs ds :=
  dabits_aux maxDabitBatch maxDabitBatch_pos rdDaBits encDaBits rdDaBits_eq encDaBits_eq ds h

private theorem pieces_flatMap (es : List EdaBit) (k : ℕ) (h : ∀ e ∈ es, e.b.length = k) :
    pieces k es.length (es.flatMap (·.b)) = es.map (·.b) := by
  induction es with
  | nil => rfl
  | cons e es ih =>
    have he := h e (List.mem_cons_self ..)
    simp only [List.length_cons, pieces, List.flatMap_cons, List.map_cons]
    rw [List.take_left' he, List.drop_left' he, ih (fun x hx => h x (List.mem_cons_of_mem _ hx))]

/-- C14. A batch of edaBits with `k` bits each. -/
theorem C14_edabits_roundtrip (es : List EdaBit) (k : ℕ) (h : ∀ e ∈ es, Fits e.r ∧ e.b.length = k) :
    ∃ bs, encEdaBits es = some bs ∧ Reads (rdEdaBits k es.length) bs es := by
  have hr : ∀ x ∈ es.map (·.r), Fits x := by
    intro x hx; obtain ⟨c, hc, rfl⟩ := List.mem_map.1 hx; exact (h c hc).1
  have hlen : (es.flatMap (·.b)).length = es.length * k := by
    clear hr
    induction es with
    | nil => simp
    | cons e es ih =>
      have he := (h e (List.mem_cons_self ..)).2
      have := ih (fun x hx => h x (List.mem_cons_of_mem _ hx))
      simp only [List.flatMap_cons, List.length_append, List.length_cons, this, he]; ring
  refine ⟨(es.map (·.r)).flatMap fmpzBytes ++ encBools (es.flatMap (·.b)), ?_, ?_⟩
  · simp [encEdaBits, encFmpzs_of_fits _ hr]
  · have h1 := reads_fmpzs _ hr
    have h2 := reads_bools (es.flatMap (·.b))
    rw [List.length_map] at h1
    rw [hlen] at h2
    have h3 := h1.bind (f := fun rs => (rdBools (es.length * k)).bind fun bs =>
        Rd.ret (List.zipWith EdaBit.mk rs (pieces k es.length bs)))
      (h2.bindRet (f := fun bs => List.zipWith EdaBit.mk (es.map (·.r)) (pieces k es.length bs)))
    rw [pieces_flatMap es k (fun e he => (h e he).2), zip_eda] at h3
    exact h3

/-- Non-vacuity: canonical field elements satisfy the hypotheses. -/
example : ∀ x ∈ [(0 : ℤ), 5, 140737597931520], Fits x := by
  intro x hx
  apply fits_of_canon
  simp only [List.mem_cons, List.not_mem_nil, or_false] at hx
  rcases hx with rfl | rfl | rfl <;> (unfold Canon intModulus; norm_num)

/-! ## C15 -/

/-- C15. A non-empty string shorter than `2^32` is received as sent, with the byte count reported on both sides. -/
theorem C15_string_roundtrip (x old : Bytes) (h0 : 0 < x.length) (h : x.length < 2 ^ 32) :
    (encString x).1 = 8 + x.length ∧ (encString x).2.length = 8 + x.length ∧
    Reads (rdString old) (encString x).2 (8 + (x.length : ℤ), x) := by
  have hne : x.length ≠ 0 := by omega
  have e : encString x = (8 + (x.length : ℤ), encSize (BitVec.ofNat 64 x.length) ++ x) := by
    unfold encString; rw [if_neg hne]
  rw [e]
  refine ⟨rfl, by simp [encSize], ?_⟩
  have hn : (BitVec.ofNat 64 x.length).toNat = x.length := by
    rw [BitVec.toNat_ofNat]; apply Nat.mod_eq_of_lt; omega
  have hs := reads_size (BitVec.ofNat 64 x.length)
  rw [hn, Nat.mod_eq_of_lt h] at hs
  have hne' : BitVec.ofNat 64 x.length ≠ 0#64 := by
    intro hc
    have := congrArg BitVec.toNat hc
    rw [hn] at this; exact hne this
  refine hs.bind ?_
  refine Reads.get hn.symm ?_
  rw [if_neg hne', hn]
  exact Reads.ret _

/-- C15. The empty string is not received: both sides report 0 (the code for failure) and the variable of the
receiver keeps its old value. -/
theorem C15_empty_string (old : Bytes) :
    (encString []).1 = 0 ∧ Reads (rdString old) (encString []).2 (0, old) := by
  refine ⟨rfl, ?_⟩
  have hs := reads_size (BitVec.ofNat 64 0)
  have : Reads (rdString old) (encSize (BitVec.ofNat 64 0) ++ []) (0, old) := by
    refine hs.bind ?_
    refine Reads.get rfl ?_
    exact Reads.ret _
  rw [List.append_nil] at this
  exact this

/-- Non-vacuity. -/
example : (0 : ℕ) < ([1#8, 2#8] : Bytes).length ∧ ([1#8, 2#8] : Bytes).length < 2 ^ 32 := by decide

end Verif

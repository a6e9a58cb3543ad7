import Verif.ModelRecv
import Mathlib.Tactic.Ring
import Mathlib.Tactic.Linarith

/-!
# C11, C12: receiving from a fragmenting or failing socket
-/

namespace Verif

/-- All events deliver at least one byte. -/
def Delivers (evs : List RecvEv) : Prop := ∀ e ∈ evs, ∃ k, e = .chunk k ∧ 0 < k

private theorem recv_loop (len : ℕ) (hlen : len < 2 ^ 32) :
    ∀ (evs : List RecvEv) (n : ℕ) (done rest0 s : Bytes), Delivers evs → done.length = n →
      n + rest0.length = len → len - n ≤ evs.length → len - n ≤ s.length →
      ∃ evs', recvInLoop (BitVec.ofNat 64 len) evs (BitVec.ofNat 32 n) (done ++ rest0) s =
        some ⟨(BitVec.ofNat 32 len).toInt, done ++ s.take (len - n), s.drop (len - n), evs'⟩ := by
  have hL : (BitVec.ofNat 64 len).toNat = len := by
    rw [BitVec.toNat_ofNat]; apply Nat.mod_eq_of_lt; omega
  intro evs
  induction evs with
  | nil =>
    intro n done rest0 s _ hd hr he hs
    have hn : n = len := by simp at he; omega
    subst hn
    have h0 : rest0 = [] := List.eq_nil_of_length_eq_zero (by omega)
    subst h0
    have hN : ((BitVec.ofNat 32 n).setWidth 64).toNat = n := by
      rw [BitVec.toNat_setWidth, BitVec.toNat_ofNat]
      rw [Nat.mod_eq_of_lt hlen]; apply Nat.mod_eq_of_lt; omega
    rw [recvInLoop, if_neg (by rw [BitVec.lt_def, hL, hN]; omega)]
    exact ⟨[], by simp⟩
  | cons e evs ih =>
    intro n done rest0 s hdel hd hr he hs
    have hN : ((BitVec.ofNat 32 n).setWidth 64).toNat = n := by
      rw [BitVec.toNat_setWidth, BitVec.toNat_ofNat]
      rw [Nat.mod_eq_of_lt (by omega)]; apply Nat.mod_eq_of_lt; omega
    by_cases hn : n < len
    · obtain ⟨k, rfl, hk⟩ := hdel e (List.mem_cons_self ..)
      rw [recvInLoop, if_pos (by rw [BitVec.lt_def, hL, hN]; exact hn)]
      have hreq : (BitVec.ofNat 64 len - (BitVec.ofNat 32 n).setWidth 64).toNat = len - n := by
        rw [BitVec.toNat_sub_of_le (by rw [BitVec.le_def, hL, hN]; omega), hL, hN]
      simp only [hreq]
      set m := min (min k (len - n)) s.length with hm
      have hdl : (s.take (min k (len - n))).length = m := by rw [List.length_take]
      have hm1 : 1 ≤ m := by omega
      have hm2 : m ≤ len - n := by omega
      rw [if_neg (by rw [hdl]; omega)]
      have hcnt : BitVec.ofNat 32 n + BitVec.ofNat 32 (s.take (min k (len - n))).length = BitVec.ofNat 32 (n + m) := by
        rw [hdl, BitVec.ofNat_add]
      have hNN : (BitVec.ofNat 32 n).toNat = n := by
        rw [BitVec.toNat_ofNat, Nat.mod_eq_of_lt (by omega)]
      have hmk : s.take (min k (len - n)) = s.take m := by
        rw [hm]
        rcases Nat.le_total (min k (len - n)) s.length with h | h
        · rw [Nat.min_eq_left h]
        · rw [Nat.min_eq_right h, List.take_of_length_le h, List.take_of_length_le (Nat.le_refl _)]
      have hw : writeAt (done ++ rest0) n (s.take m) = (done ++ s.take m) ++ rest0.drop m := by
        have hl : (s.take m).length = m := by rw [← hmk]; exact hdl
        unfold writeAt
        rw [hl, List.take_left' hd, List.drop_append, hd, List.drop_eq_nil_of_le (by omega), List.nil_append]
        congr 2; clear hreq hN hNN; omega
      rw [hcnt, hNN]
      rw [hmk] at hdl ⊢
      rw [hw, hdl]
      obtain ⟨evs', h⟩ := ih (n + m) (done ++ s.take m) (rest0.drop m) (s.drop m)
        (fun e h => hdel e (List.mem_cons_of_mem _ h)) (by simp [hdl, hd]) (by simp; omega)
        (by simp at he; omega) (by simp; omega)
      refine ⟨evs', ?_⟩
      rw [h]
      have e1 : s.take m ++ (s.drop m).take (len - (n + m)) = s.take (len - n) := by
        have : len - n = m + (len - (n + m)) := by omega
        rw [this, List.take_add]
      have e2 : (s.drop m).drop (len - (n + m)) = s.drop (len - n) := by
        rw [List.drop_drop]; congr 1; omega
      rw [List.append_assoc, e1, e2]
    · have hn : n = len := by omega
      subst hn
      have h0 : rest0 = [] := List.eq_nil_of_length_eq_zero (by omega)
      subst h0
      rw [recvInLoop.eq_def]; dsimp only; rw [if_neg (by rw [BitVec.lt_def, hL, hN]; omega)]
      exact ⟨e :: evs, by simp⟩

/-- C11. Whatever positive fragment sizes the kernel delivers, a receive of `len < 2^32` bytes from a stream with at
least `len` further bytes ends after at most `len` calls, has stored exactly the next `len` bytes in order and leaves the
rest of the stream. The reported count is `len` whenever `len` fits the `int` result. -/
theorem C11_fragmentation_independent (len : ℕ) (hlen : len < 2 ^ 32) (evs : List RecvEv) (buf s : Bytes)
    (hev : Delivers evs) (hn : len ≤ evs.length) (hb : buf.length = len) (hs : len ≤ s.length) :
    ∃ out, recvIn (BitVec.ofNat 64 len) evs buf s = some out ∧ out.buf = s.take len ∧ out.rest = s.drop len ∧
      (len < 2 ^ 31 → out.ret = len) := by
  obtain ⟨evs', h⟩ := recv_loop len hlen evs 0 [] buf s hev rfl (by omega) (by omega) (by omega)
  refine ⟨_, by simpa [recvIn] using h, by simp, by simp, ?_⟩
  intro h31
  show (BitVec.ofNat 32 len).toInt = (len : ℤ)
  rw [BitVec.toInt_eq_toNat_of_lt (by rw [BitVec.toNat_ofNat, Nat.mod_eq_of_lt hlen]; omega), BitVec.toNat_ofNat,
    Nat.mod_eq_of_lt hlen]

/-- Non-vacuity: a 5-byte message arriving as 2 + 1 + 2 bytes. -/
example : recvIn 5#64 [.chunk 2, .chunk 1, .chunk 100, .chunk 1, .chunk 1] [0, 0, 0, 0, 0] [10, 11, 12, 13, 14, 15] =
    some ⟨5, [10, 11, 12, 13, 14], [15], [.chunk 1, .chunk 1]⟩ := by decide +kernel

/-- C11, limit of the reported count: at 2 GiB and above the `int` result is negative although the data is right. -/
theorem C11_false_count_above_int : ((BitVec.ofNat 32 (2 ^ 31)).toInt : ℤ) < 0 := by decide

/-- C12 is false: an error in the middle of a message is swallowed. After two good bytes one call fails, the code
steps back one position, and the receive reports success with a wrong buffer and one byte too many consumed. -/
theorem C12_false_mid_message_error :
    ∃ (len : U64) (evs : List RecvEv) (buf s : Bytes) (out : RecvOut),
      RecvEv.err ∈ evs ∧ recvIn len evs buf s = some out ∧ out.ret = len.toNat ∧
      out.buf ≠ s.take len.toNat ∧ out.rest ≠ s.drop len.toNat :=
  ⟨4#64, [.chunk 2, .err, .chunk 8], [0, 0, 0, 0], [10, 11, 12, 13, 14, 15],
    ⟨4, [10, 12, 13, 14], [15], []⟩, by decide +kernel⟩

/-- C12, what an error after `k` bytes does in general (`0 < k < len`): the position goes back by one and the loop
goes on; the error is not reported at that point. -/
theorem C12_error_steps_back (len : U64) (hlen : len.toNat < 2 ^ 32) (evs : List RecvEv) (k : ℕ) (buf s : Bytes)
    (hk : 0 < k) (hk' : k < len.toNat) :
    recvInLoop len (.err :: evs) (BitVec.ofNat 32 k) buf s = recvInLoop len evs (BitVec.ofNat 32 (k - 1)) buf s := by
  have hN : ((BitVec.ofNat 32 k).setWidth 64).toNat = k := by
    rw [BitVec.toNat_setWidth, BitVec.toNat_ofNat]
    rw [Nat.mod_eq_of_lt (by omega)]; apply Nat.mod_eq_of_lt; omega
  rw [recvInLoop, if_pos (by rw [BitVec.lt_def, hN]; exact hk')]
  have : BitVec.ofNat 32 k + 0xFFFFFFFF#32 = BitVec.ofNat 32 (k - 1) := by
    rw [← BitVec.ofNat_add]
    apply BitVec.eq_of_toNat_eq
    rw [BitVec.toNat_ofNat, BitVec.toNat_ofNat]
    omega
  simp only [this]

/-- C12, what holds: an error before the first byte is reported as -1 and leaves buffer and stream untouched. -/
theorem C12_first_error_partial (len : U64) (h0 : 0 < len.toNat) (hlen : len.toNat < 2 ^ 32 - 1)
    (evs : List RecvEv) (buf s : Bytes) :
    recvIn len (.err :: evs) buf s = some ⟨-1, buf, s, evs⟩ := by
  unfold recvIn
  have hz : ((0#32).setWidth 64).toNat = 0 := by decide
  rw [recvInLoop, if_pos (by rw [BitVec.lt_def, hz]; exact h0)]
  have h1 : 0#32 + 0xFFFFFFFF#32 = 0xFFFFFFFF#32 := by decide
  simp only [h1]
  have hm : ((0xFFFFFFFF#32).setWidth 64).toNat = 2 ^ 32 - 1 := by decide
  rw [recvInLoop.eq_def]; dsimp only; rw [if_neg (by rw [BitVec.lt_def, hm]; omega)]
  congr 1

/-- C12, what holds: end of stream is reported as 0 at any point of a message. -/
theorem C12_eof_reported_partial (len : U64) (n : BitVec 32) (hn : n.setWidth 64 < len) (evs : List RecvEv) (buf s : Bytes) :
    recvInLoop len (.eof :: evs) n buf s = some ⟨0, buf, s, evs⟩ := by
  rw [recvInLoop, if_pos hn]

example : (0#32).setWidth 64 < 4#64 := by decide

end Verif

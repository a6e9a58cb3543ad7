import Verif.PropsNet

/-! # Lemmas about readers: what can be said about a result, and when there is one -/

namespace Verif

/-- A reader that takes exactly `n` bytes, never faults, and whose results satisfy `P`. -/
def Takes {α : Type} (r : Rd α) (n : ℕ) (P : α → Prop) : Prop :=
  ∀ s, (s.length < n → r.run s = none) ∧ (n ≤ s.length → ∃ a, r.run s = some (a, s.drop n) ∧ P a)

variable {α β : Type}

theorem Takes.ret {a : α} {P : α → Prop} (h : P a) : Takes (.ret a) 0 P :=
  fun s => ⟨fun h' => by omega, fun _ => ⟨a, by simp [Rd.run], h⟩⟩

theorem Takes.mono {r : Rd α} {n : ℕ} {P Q : α → Prop} (h : Takes r n P) (hq : ∀ a, P a → Q a) : Takes r n Q :=
  fun s => ⟨(h s).1, fun hl => by obtain ⟨a, e, ha⟩ := (h s).2 hl; exact ⟨a, e, hq a ha⟩⟩

theorem Takes.bind {r : Rd α} {f : α → Rd β} {n m : ℕ} {P : α → Prop} {Q : β → Prop} (h : Takes r n P)
    (hf : ∀ a, P a → Takes (f a) m Q) : Takes (r.bind f) (n + m) Q := by
  intro s
  rw [Rd.run_bind]
  by_cases hn : s.length < n
  · rw [(h s).1 hn]
    exact ⟨fun _ => rfl, fun h' => by omega⟩
  · obtain ⟨a, e, ha⟩ := (h s).2 (by omega)
    rw [e]
    obtain ⟨h1, h2⟩ := hf a ha (s.drop n)
    rw [List.length_drop] at h1 h2
    refine ⟨fun hl => h1 (by omega), fun hl => ?_⟩
    obtain ⟨b, e', hb⟩ := h2 (by omega)
    exact ⟨b, by show (f a).run (s.drop n) = _; rw [e', List.drop_drop], hb⟩

theorem Takes.get {n m : ℕ} {k : Bytes → Rd α} {P : α → Prop} (h : ∀ bs, bs.length = n → Takes (k bs) m P) :
    Takes (.get n k) (n + m) P := by
  intro s
  by_cases hn : s.length < n
  · simp only [Rd.run, if_pos hn]
    exact ⟨fun _ => trivial, fun h' => by omega⟩
  · simp only [Rd.run, if_neg hn]
    obtain ⟨h1, h2⟩ := h (s.take n) (by simp; omega) (s.drop n)
    rw [List.length_drop] at h1 h2
    refine ⟨fun hl => h1 (by omega), fun hl => ?_⟩
    obtain ⟨b, e', hb⟩ := h2 (by omega)
    exact ⟨b, by rw [e', List.drop_drop], hb⟩

theorem Takes.rep {r : Rd α} {n : ℕ} {P : α → Prop} (h : Takes r n P) (k : ℕ) :
    Takes (r.rep k) (k * n) fun l => l.length = k ∧ ∀ a ∈ l, P a := by
  induction k with
  | zero => rw [Nat.zero_mul]; exact Takes.ret ⟨rfl, by simp⟩
  | succ k ih =>
    have : (k + 1) * n = n + (k * n + 0) := by ring
    rw [this]
    refine h.bind fun a ha => ih.bind fun l hl => Takes.ret ⟨by simp [hl.1], ?_⟩
    intro b hb
    rcases List.mem_cons.1 hb with rfl | hb
    · exact ha
    · exact hl.2 b hb

/-- What a successful run says. -/
theorem Takes.of_run {r : Rd α} {n : ℕ} {P : α → Prop} (h : Takes r n P) {s rest : Bytes} {a : α} (hr : r.run s = some (a, rest)) :
    n ≤ s.length ∧ rest = s.drop n ∧ P a := by
  by_cases hn : s.length < n
  · rw [(h s).1 hn] at hr; cases hr
  · obtain ⟨b, e, hb⟩ := (h s).2 (by omega)
    rw [e] at hr; cases hr
    exact ⟨by omega, rfl, hb⟩

theorem takes_fmpz : Takes rdFmpz 8 Fits := by
  refine Takes.get (m := 0) fun bs hb => Takes.ret ⟨by omega, ?_⟩
  have := leVal_lt bs
  rw [hb] at this
  have e : (256 : ℕ) ^ 8 = 2 ^ 64 := by norm_num
  rw [e] at this
  exact_mod_cast this

theorem wordsOf_length (n : ℕ) (bs : Bytes) : (wordsOf n bs).length = n := by
  induction n generalizing bs with
  | zero => rfl
  | succ n ih => simp [wordsOf, ih]

theorem takes_words (n : ℕ) : Takes (rdWords n) (8 * n) fun l => l.length = n :=
  Takes.get (m := 0) fun bs _ => Takes.ret (wordsOf_length n bs)

theorem takes_u64 : Takes rdU64 8 fun _ => True :=
  Takes.get (m := 0) fun _ _ => Takes.ret trivial

/-- Every packet read has the sizes of its circuit, and numbers of one limb. -/
theorem takes_packet (nMul : ℕ) : Takes (rdPacket nMul) (8 * (nMul + npow2 nMul + 6)) fun k =>
    k.mulShares.length = nMul ∧ k.hPoints.length = npow2 nMul ∧ ∀ y ∈ k.all, Fits y := by
  have e : 8 * (nMul + npow2 nMul + 6) = nMul * 8 + (8 + (8 + (8 + (npow2 nMul * 8 + ((8 + (8 + (8 + 0))) + 0))))) := by ring
  rw [e]
  refine (takes_fmpz.rep nMul).bind fun ms hm => takes_fmpz.bind fun f0 hf => takes_fmpz.bind fun g0 hg => takes_fmpz.bind fun h0 hh =>
    (takes_fmpz.rep (npow2 nMul)).bind fun hs hhs => ?_
  have ht : Takes rdTriple (8 + (8 + (8 + 0))) fun t => Fits t.A ∧ Fits t.B ∧ Fits t.C :=
    takes_fmpz.bind fun a ha => takes_fmpz.bind fun b hb => takes_fmpz.bind fun c hc => Takes.ret ⟨ha, hb, hc⟩
  refine ht.bind fun t ht => Takes.ret ⟨hm.1, hhs.1, ?_⟩
  intro y hy
  simp only [Packet.all, List.mem_append, List.mem_cons, List.not_mem_nil, or_false] at hy
  rcases hy with ((hy | rfl | rfl | rfl) | hy) | rfl | rfl | rfl
  · exact hm.2 y hy
  · exact hf
  · exact hg
  · exact hh
  · exact hhs.2 y hy
  · exact ht.1
  · exact ht.2.1
  · exact ht.2.2

end Verif

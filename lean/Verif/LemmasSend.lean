import Verif.ModelSend
import Verif.PropsNet
import Verif.LemmasRd

/-!
# Senders as lists of messages
-/

namespace Verif

theorem Snd.retn_bind (x : ℤ) (k : ℤ → Snd) : (Snd.retn x).bind k = k x := by
  funext evs
  simp only [Snd.bind, Snd.retn]
  cases h : k x evs <;> simp

theorem Snd.bind_assoc (f : Snd) (g h : ℤ → Snd) : (f.bind g).bind h = f.bind fun x => (g x).bind h := by
  funext evs
  simp only [Snd.bind]
  cases hf : f evs with
  | done x w e =>
    simp only
    cases hg : g x e with
    | done y w' e' =>
      simp only
      cases hh : h y e' <;> simp
    | _ => simp
  | _ => simp

theorem Snd.bind_retn (f : Snd) : f.bind Snd.retn = f := by
  funext evs
  simp only [Snd.bind, Snd.retn]
  cases h : f evs <;> simp

theorem sendSeq_join (gs : List Snd) (t : ℤ) : ∀ (fs : List Snd) (a : ℤ), 0 < a →
    (sendSeq fs a).bind (fun ret => if ret ≤ 0 then .retn ret else sendSeq gs (t + ret)) = sendSeq (fs ++ gs) (t + a)
  | [], a, ha => by
    rw [sendSeq, Snd.retn_bind, if_neg (by omega)]; rfl
  | f :: fs, a, ha => by
    rw [sendSeq, Snd.bind_assoc, List.cons_append, sendSeq]
    congr 1
    funext r
    by_cases hr : r ≤ 0
    · rw [if_pos hr, if_pos hr, Snd.retn_bind, if_pos hr]
    · rw [if_neg hr, if_neg hr, sendSeq_join gs t fs (a + r) (by omega), add_assoc]

/-- A sequence inside a sequence. -/
theorem sendSeq_flat {fs : List Snd} (h : fs ≠ []) (gs : List Snd) (t : ℤ) : sendSeq (sendSeq fs 0 :: gs) t = sendSeq (fs ++ gs) t := by
  cases fs with
  | nil => exact absurd rfl h
  | cons f fs =>
    rw [sendSeq, sendSeq, Snd.bind_assoc, List.cons_append, sendSeq]
    congr 1
    funext r
    by_cases hr : r ≤ 0
    · rw [if_pos hr, if_pos hr, Snd.retn_bind, if_pos hr]
    · rw [if_neg hr, if_neg hr, zero_add, sendSeq_join gs t fs r (by omega)]

/-- The calls of `send` for the messages `ps`, one after the other. -/
def sendParts (ps : List Bytes) : Snd := sendSeq (ps.map posixSend) 0

theorem sendSeq_parts : ∀ (qs : List (List Bytes)) (t : ℤ), (∀ q ∈ qs, q ≠ []) →
    sendSeq (qs.map sendParts) t = sendSeq (qs.flatten.map posixSend) t
  | [], _, _ => rfl
  | q :: qs, t, h => by
    rw [List.map_cons, List.flatten_cons, List.map_append]
    have hq : q.map posixSend ≠ [] := by simpa using h q (List.mem_cons_self ..)
    rw [sendParts, sendSeq_flat hq]
    generalize hfs : q.map posixSend = fs
    clear hfs hq
    have ih := fun t => sendSeq_parts qs t (fun q' hq' => h q' (List.mem_cons_of_mem _ hq'))
    induction fs generalizing t with
    | nil => exact ih t
    | cons f fs ihf =>
      rw [List.cons_append, List.cons_append, sendSeq, sendSeq]
      congr 1
      funext r
      rw [ihf]

theorem sendOne_parts (bs : Bytes) : sendOne (some bs) = sendParts [bs] := rfl

theorem posixSend_parts (bs : Bytes) : posixSend bs = sendParts [bs] := by
  show _ = (posixSend bs).bind fun ret => if ret ≤ 0 then Snd.retn ret else Snd.retn (0 + ret)
  conv_lhs => rw [← Snd.bind_retn (posixSend bs)]
  congr 1
  funext r
  rw [zero_add, ite_self]

/-- Room for `n` bytes. -/
def Full (n : ℕ) (e : SendEv) : Prop := ∃ k, e = .upTo k ∧ n ≤ k + 1

theorem Full.mono {m n : ℕ} (h : m ≤ n) {e : SendEv} : Full n e → Full m e := fun ⟨k, e, hk⟩ => ⟨k, e, h.trans hk⟩

theorem posixSend_full {bs : Bytes} {e : SendEv} (h : Full bs.length e) (evs : List SendEv) :
    posixSend bs (e :: evs) = .done bs.length bs evs := by
  obtain ⟨k, rfl, hk⟩ := h
  rw [posixSend, Nat.min_eq_right hk, List.take_of_length_le hk]

/-- The sender puts all of `bs` on the connection and returns its length, if `n` calls of `send` take all they are given. -/
def SendsAll (f : Snd) (bs : Bytes) (n : ℕ) : Prop :=
  ∀ es evs, es.length = n → (∀ e ∈ es, Full bs.length e) → f (es ++ evs) = .done bs.length bs evs

/-- If every call of `send` takes all or fails, the sender returns the length after sending all, or -1 after sending the messages before the one
that failed. -/
def Faithful (f : Snd) (bs : Bytes) : Prop :=
  ∀ evs, (∀ e ∈ evs, e = .err ∨ Full bs.length e) → f evs = .waits ∨
    (∃ evs', f evs = .done bs.length bs evs') ∨ ∃ w evs', f evs = .done (-1) w evs' ∧ w <+: bs ∧ w ≠ bs

theorem parts_all : ∀ (ps : List Bytes) (t : ℤ), (∀ q ∈ ps, q ≠ []) → 0 ≤ t → ∀ (m : ℕ), ps.flatten.length ≤ m → ∀ es evs, es.length = ps.length →
    (∀ e ∈ es, Full m e) → sendSeq (ps.map posixSend) t (es ++ evs) = .done (t + ps.flatten.length) ps.flatten evs
  | [], t, _, _, m, _, es, evs, hl, _ => by
    rw [List.length_eq_zero_iff.1 hl]
    simp [sendSeq, Snd.retn]
  | q :: ps, t, h, ht, m, hm, [], evs, hl, _ => by simp at hl
  | q :: ps, t, h, ht, m, hm, e :: es, evs, hl, he => by
    rw [List.flatten_cons, List.length_append] at hm
    have hq : 0 < q.length := List.length_pos_of_ne_nil (h q (List.mem_cons_self ..))
    rw [List.map_cons, sendSeq, Snd.bind, List.cons_append, posixSend_full ((he e (List.mem_cons_self ..)).mono (by omega))]
    simp only
    rw [if_neg (by omega), parts_all ps (t + q.length) (fun q' hq' => h q' (List.mem_cons_of_mem _ hq')) (by omega) m (by omega) es evs (by simpa using hl)
      (fun e' he' => he e' (List.mem_cons_of_mem _ he'))]
    simp only [List.flatten_cons, List.length_append, Nat.cast_add, add_assoc]

theorem sendParts_all {ps : List Bytes} (h : ∀ q ∈ ps, q ≠ []) : SendsAll (sendParts ps) ps.flatten ps.length := by
  intro es evs hl he
  unfold sendParts
  rw [parts_all ps 0 h le_rfl _ le_rfl es evs hl he, zero_add]

theorem parts_faithful : ∀ (ps : List Bytes) (t : ℤ), (∀ q ∈ ps, q ≠ []) → 0 ≤ t → ∀ (m : ℕ), ps.flatten.length ≤ m → ∀ evs,
    (∀ e ∈ evs, e = .err ∨ Full m e) → sendSeq (ps.map posixSend) t evs = .waits ∨
      (∃ evs', sendSeq (ps.map posixSend) t evs = .done (t + ps.flatten.length) ps.flatten evs') ∨
      ∃ w evs', sendSeq (ps.map posixSend) t evs = .done (-1) w evs' ∧ w <+: ps.flatten ∧ w ≠ ps.flatten
  | [], t, _, _, m, _, evs, _ => by
    right; left
    exact ⟨evs, by simp [sendSeq, Snd.retn]⟩
  | q :: ps, t, h, ht, m, hm, [], _ => by left; rfl
  | q :: ps, t, h, ht, m, hm, e :: evs, he => by
    rw [List.flatten_cons, List.length_append] at hm
    have hq : 0 < q.length := List.length_pos_of_ne_nil (h q (List.mem_cons_self ..))
    rw [List.map_cons, sendSeq, Snd.bind]
    rcases he e (List.mem_cons_self ..) with rfl | hf
    · right; right
      refine ⟨[], evs, by simp [posixSend, Snd.retn], List.nil_prefix, ?_⟩
      rw [List.flatten_cons]
      intro h'
      have := congrArg List.length h'
      simp at this
      omega
    · rw [posixSend_full (hf.mono (by omega))]
      simp only
      rw [if_neg (by omega)]
      rcases parts_faithful ps (t + q.length) (fun q' hq' => h q' (List.mem_cons_of_mem _ hq')) (by omega) m (by omega) evs
        (fun e' he' => he e' (List.mem_cons_of_mem _ he')) with h' | ⟨evs', h'⟩ | ⟨w, evs', h', hw, hne⟩
      · left; rw [h']
      · right; left
        refine ⟨evs', ?_⟩
        rw [h']
        simp only [List.flatten_cons, List.length_append, Nat.cast_add, add_assoc]
      · right; right
        refine ⟨q ++ w, evs', by rw [h'], ?_, ?_⟩
        · rw [List.flatten_cons]; exact (List.prefix_append_right_inj q).2 hw
        · rw [List.flatten_cons]; simpa using hne

theorem sendParts_faithful {ps : List Bytes} (h : ∀ q ∈ ps, q ≠ []) : Faithful (sendParts ps) ps.flatten := by
  intro evs he
  unfold sendParts
  have := parts_faithful ps 0 h le_rfl _ le_rfl evs he
  rwa [zero_add] at this

/-- Two senders one after the other, without a look at the results. -/
theorem sendSum_all {f g : Snd} {bs cs : Bytes} {m n : ℕ} (hf : SendsAll f bs m) (hg : SendsAll g cs n) : SendsAll (sendSum f g) (bs ++ cs) (m + n) := by
  intro es evs hl he
  rw [List.length_append] at he
  have e1 := hf (es.take m) (es.drop m ++ evs) (by rw [List.length_take]; omega) fun e h => (he e (List.mem_of_mem_take h)).mono (by omega)
  have e2 := hg (es.drop m) evs (by rw [List.length_drop]; omega) fun e h => (he e (List.mem_of_mem_drop h)).mono (by omega)
  rw [← List.append_assoc, List.take_append_drop] at e1
  unfold sendSum Snd.bind
  rw [e1]
  simp only
  rw [e2]
  simp [Snd.retn]

end Verif

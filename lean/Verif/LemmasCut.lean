import Verif.ModelCut
import Verif.PropsVar
import Verif.PropsFreq
import Verif.PropsLinReg

/-!
# Lemmas on connections that end early
-/

namespace Verif

theorem known_some (b : Bytes) : known (b.map some) = some b := by
  unfold known
  induction b with
  | nil => rfl
  | cons x b ih => rw [List.map_cons, optAll, ih]; rfl

theorem known_none {c : Cells} (h : none ∈ c) : known c = none := by
  unfold known
  induction c with
  | nil => simp at h
  | cons x c ih =>
    cases x with
    | none => rfl
    | some x =>
      rw [optAll, ih (by simpa using h)]; rfl

theorem known_all {c : Cells} (h : none ∉ c) : ∃ b : Bytes, c = b.map some := by
  induction c with
  | nil => exact ⟨[], rfl⟩
  | cons x c ih =>
    cases x with
    | none => simp at h
    | some x =>
      obtain ⟨b, rfl⟩ := ih (by simpa using h)
      exact ⟨x :: b, rfl⟩

theorem recvCut_full {old : Cells} {s : Bytes} (h : old.length ≤ s.length) : recvCut old s = ((s.take old.length).map some, s.drop old.length) := by
  unfold recvCut; rw [if_neg (by omega)]

theorem recvCut_short {old : Cells} {s : Bytes} (h : s.length < old.length) : recvCut old s = (s.map some ++ old.drop s.length, []) := by
  unfold recvCut; rw [if_pos h]

theorem recvCut_length (old : Cells) (s : Bytes) : (recvCut old s).1.length = old.length := by
  unfold recvCut
  split
  · simp; omega
  · simp; omega

/-- A variable whose content is known stays known. -/
theorem recvCut_known (b s : Bytes) : ∃ b' : Bytes, b'.length = b.length ∧ (recvCut (b.map some) s).1 = b'.map some := by
  by_cases h : s.length < b.length
  · rw [recvCut_short (by simpa using h)]
    exact ⟨s ++ b.drop s.length, by simp; omega, by simp⟩
  · rw [recvCut_full (by simpa using h)]
    exact ⟨s.take b.length, by simp; omega, by simp⟩

theorem packetCut_full {nMul : ℕ} {s : Bytes} (h : 8 * (nMul + npow2 nMul + 6) ≤ s.length) :
    ∃ k, (rdPacket nMul).run s = some (k, s.drop (8 * (nMul + npow2 nMul + 6))) ∧ packetCut nMul s = (some k, s.drop (8 * (nMul + npow2 nMul + 6))) := by
  obtain ⟨k, e, -⟩ := (takes_packet nMul s).2 h
  exact ⟨k, e, by unfold packetCut; rw [e]⟩

theorem packetCut_short {nMul : ℕ} {s : Bytes} (h : s.length < 8 * (nMul + npow2 nMul + 6)) : packetCut nMul s = (none, []) := by
  unfold packetCut; rw [(takes_packet nMul s).1 h]

/-! ## The records that arrive completely -/

/-- The complete records of `N` bytes among the first `t`, read with `r`. -/
def whole {α : Type} (r : Rd α) (N t : ℕ) (s : Bytes) : Option (List α) := ((r.rep (min t (s.length / N))).run s).map (·.1)

theorem whole_short {α : Type} {r : Rd α} {N t : ℕ} {s : Bytes} (h : s.length < N) : whole r N t s = some [] := by
  unfold whole
  rw [Nat.div_eq_of_lt h, Nat.min_zero]; rfl

theorem whole_zero {α : Type} {r : Rd α} {N : ℕ} {s : Bytes} : whole r N 0 s = some [] := by
  unfold whole
  rw [Nat.zero_min]; rfl

theorem whole_step {α : Type} {r : Rd α} {N t : ℕ} {s : Bytes} (hN : 0 < N) (h : N ≤ s.length) {e : α} (he : r.run s = some (e, s.drop N)) :
    whole r N (t + 1) s = (whole r N t (s.drop N)).map (e :: ·) := by
  unfold whole
  have : min (t + 1) (s.length / N) = min t ((s.drop N).length / N) + 1 := by
    rw [List.length_drop, show s.length / N = (s.length - N) / N + 1 by rw [← Nat.add_div_right _ hN]; congr 1; omega]
    omega
  rw [this, Rd.rep, Rd.run_bind, he]
  show Option.map _ (((r.rep _).bind _).run _) = _
  rw [Rd.run_bind]
  cases (r.rep (min t ((s.drop N).length / N))).run (s.drop N) with
  | none => rfl
  | some q => rfl

/-- A reader of `N` bytes reads all complete records. -/
theorem whole_some {α : Type} {r : Rd α} {N : ℕ} {P : α → Prop} (h : Takes r N P) :
    ∀ (t : ℕ) (s : Bytes), ∃ l, whole r N t s = some l ∧ l.length = min t (s.length / N) ∧ ∀ e ∈ l, P e := by
  intro t s
  have hl : min t (s.length / N) * N ≤ s.length := (Nat.mul_le_mul_right N (Nat.min_le_right ..)).trans (Nat.div_mul_le_self ..)
  obtain ⟨l, e, hp⟩ := ((h.rep (min t (s.length / N))) s).2 hl
  exact ⟨l, by unfold whole; rw [e]; rfl, hp⟩

theorem admit_one {α : Type} (ok : α → Bool) (e : Bytes × α) (es : List (Bytes × α)) (m : Map α) :
    admit ok (e :: es) m = admit ok es (if (m.lookup e.1).isSome || !ok e.2 then m else m ++ [e]) := by
  rw [admit]; split <;> simp_all

/-! ## var_op -/

/-- The size of a submission (types.h:29-33, net_share.cpp:380-406). -/
def varRec (nMul : ℕ) : ℕ := pkLength + 16 + 8 * (nMul + npow2 nMul + 6)

theorem varRec_pos (nMul : ℕ) : 0 < varRec nMul := by unfold varRec pkLength; omega

theorem takes_var' (nMul : ℕ) : Takes (rdVarShare nMul) (varRec nMul) fun e =>
    e.1.length = pkLength ∧ e.2.vals.length = 2 ∧ e.2.packet.mulShares.length = nMul ∧ e.2.packet.hPoints.length = npow2 nMul := by
  have := takes_var nMul
  rwa [show pkLength + (8 * 2 + (8 * (nMul + npow2 nMul + 6) + 0)) = varRec nMul by unfold varRec; omega] at this

theorem var_step {nMul : ℕ} {mx : U64} {t : ℕ} {c : Cells} (hc : c.length = pkLength + 16) {s : Bytes} (hs : varRec nMul ≤ s.length) (m : Map SnipRow) :
    ∃ e, (rdVarShare nMul).run s = some (e, s.drop (varRec nMul)) ∧ varCutLoop nMul mx (t + 1) c s m =
      varCutLoop nMul mx t ((s.take (pkLength + 16)).map some) (s.drop (varRec nMul))
        (if (m.lookup e.1).isSome || !varOk mx e.2 then m else m ++ [e]) := by
  have hl : pkLength + 16 ≤ s.length := by unfold varRec at hs; omega
  obtain ⟨k, hk, hp⟩ := packetCut_full (nMul := nMul) (s := s.drop (pkLength + 16)) (by rw [List.length_drop]; unfold varRec at hs; omega)
  rw [List.drop_drop] at hk hp
  refine ⟨(s.take pkLength, ⟨wordsOf 2 ((s.drop pkLength).take 16), k⟩), ?_, ?_⟩
  · unfold rdVarShare
    rw [Rd.run, if_neg (by omega)]
    unfold rdWords
    simp only [Rd.bind, Rd.run]
    rw [if_neg (by rw [List.length_drop]; omega), List.drop_drop, Rd.run_bind, show 8 * 2 = 16 from rfl, hk]
    rfl
  · rw [varCutLoop, recvCut_full (by rw [hc]; exact hl), hc]
    dsimp only
    have e1 : (((s.take (pkLength + 16)).map some).take pkLength) = (s.take pkLength).map some := by
      rw [← List.map_take, List.take_take, Nat.min_eq_left (by omega)]
    have e2 : (((s.take (pkLength + 16)).map some).drop pkLength).take 8 = (((s.drop pkLength).take 16).take 8).map some := by
      rw [← List.map_drop, ← List.map_take, List.drop_take, Nat.add_sub_cancel_left]
    have e3 : ((s.take (pkLength + 16)).map some).drop (pkLength + 8) = ((((s.drop pkLength).take 16).drop 8).take 8).map some := by
      rw [← List.map_drop, List.drop_take, List.drop_take, List.drop_drop, List.take_take]
      congr 2
    rw [e1, e2, e3, hp, known_some, Option.bind_some]
    unfold knownWord
    rw [known_some, known_some]
    simp only [Option.map_some, Option.bind_some]
    rw [show pkLength + 16 + 8 * (nMul + npow2 nMul + 6) = varRec nMul from rfl]
    simp only [varOk, wordsOf, List.getD_cons_zero, List.getD_cons_succ]
    split
    · simp [*]
    split
    · simp [*]
    split
    · simp [*]
    · simp [*]

theorem var_short {nMul : ℕ} {mx : U64} : ∀ (t : ℕ) (b s : Bytes) (m : Map SnipRow), b.length = pkLength + 16 → s.length < varRec nMul →
    varCutLoop nMul mx t (b.map some) s m = some m
  | 0, _, _, _, _, _ => rfl
  | t + 1, b, s, m, hb, hs => by
    rw [varCutLoop]
    have hq : packetCut nMul (recvCut (b.map some) s).2 = (none, []) := by
      apply packetCut_short
      unfold recvCut
      have hlen : (b.map some).length = pkLength + 16 := by simpa using hb
      unfold varRec at hs
      rw [hlen]
      split
      · simp
      · rw [List.length_drop]; omega
    obtain ⟨b', hb', e⟩ := recvCut_known b s
    have ih := var_short (nMul := nMul) (mx := mx) t b' [] m (by rw [hb', hb]) (varRec_pos nMul)
    dsimp only
    rw [hq, e, ← List.map_take, known_some, Option.bind_some]
    split
    · exact ih
    unfold knownWord
    rw [← List.map_drop, ← List.map_take, known_some, Option.map_some, Option.bind_some]
    split
    · exact ih
    rw [← List.map_drop, known_some, Option.map_some, Option.bind_some]
    split
    · exact ih
    · exact ih

theorem var_known {nMul : ℕ} {mx : U64} : ∀ (t : ℕ) (b s : Bytes) (m : Map SnipRow), b.length = pkLength + 16 →
    varCutLoop nMul mx t (b.map some) s m = (whole (rdVarShare nMul) (varRec nMul) t s).map fun l => admit (varOk mx) l m
  | 0, _, _, _, _ => by rw [whole_zero]; rfl
  | t + 1, b, s, m, hb => by
    by_cases hs : s.length < varRec nMul
    · rw [var_short _ _ _ _ hb hs, whole_short hs]; rfl
    · obtain ⟨e, he, hstep⟩ := var_step (mx := mx) (t := t) (c := b.map some) (by simpa using hb) (not_lt.1 hs) m
      rw [hstep, var_known t _ _ _ (by have := not_lt.1 hs; unfold varRec at this; simp; omega), whole_step (varRec_pos _) (not_lt.1 hs) he,
        Option.map_map]
      congr 1
      funext l
      rw [Function.comp, admit_one]

/-- With at least one `VarShare` on the connection the loop admits exactly the complete submissions. -/
theorem var_loop {nMul : ℕ} {mx : U64} (t : ℕ) {c : Cells} (hc : c.length = pkLength + 16) {s : Bytes} (hs : pkLength + 16 ≤ s.length) (m : Map SnipRow) :
    varCutLoop nMul mx t c s m = (whole (rdVarShare nMul) (varRec nMul) t s).map fun l => admit (varOk mx) l m := by
  cases t with
  | zero => rw [whole_zero]; rfl
  | succ t =>
    rw [← var_known (t + 1) (List.replicate (pkLength + 16) 0#8) s m (by simp)]
    have : recvCut c s = recvCut ((List.replicate (pkLength + 16) (0#8 : Byte)).map some) s := by
      rw [recvCut_full (by rw [hc]; exact hs), recvCut_full (by simpa using hs), hc]
      simp
    rw [varCutLoop, varCutLoop, this]

/-! ## max_op -/

/-- The size of a submission (server.cpp:598-601). -/
def maxRec (B : ℕ) : ℕ := pkLength + 8 * (B + 1)

theorem maxRec_pos (B : ℕ) : 0 < maxRec B := by unfold maxRec pkLength; omega

theorem takes_max (B : ℕ) : Takes (rdMaxShare B) (maxRec B) fun e => e.1.length = pkLength ∧ e.2.length = B + 1 := by
  unfold rdMaxShare maxRec
  have := Takes.get (n := pkLength) (m := 8 * (B + 1) + 0) (k := fun pk => (rdWords (B + 1)).bind fun ws => .ret (pk, ws))
    (P := fun e : Bytes × List U64 => e.1.length = pkLength ∧ e.2.length = B + 1)
    fun pk hpk => (takes_words (B + 1)).bind fun ws hws => Takes.ret ⟨hpk, hws⟩
  simpa using this

/-- A complete row. -/
def wrapRow (e : Bytes × List U64) : Bytes × Option (List U64) := (e.1, some e.2)

theorem max_step {B t : ℕ} {ck : Cells} (hc : ck.length = pkLength) {s : Bytes} (hs : maxRec B ≤ s.length) (m : Map (Option (List U64))) :
    ∃ e, (rdMaxShare B).run s = some (e, s.drop (maxRec B)) ∧ e.1 = s.take pkLength ∧ maxCutLoop B (t + 1) ck s m =
      maxCutLoop B t (e.1.map some) (s.drop (maxRec B)) (if (m.lookup e.1).isSome || !true then m else m ++ [wrapRow e]) := by
  have hl : pkLength ≤ s.length := by unfold maxRec at hs; omega
  refine ⟨(s.take pkLength, wordsOf (B + 1) ((s.drop pkLength).take (8 * (B + 1)))), ?_, rfl, ?_⟩
  · unfold rdMaxShare rdWords
    simp only [Rd.bind, Rd.run]
    rw [if_neg (by omega), if_neg (by rw [List.length_drop]; unfold maxRec at hs; omega), List.drop_drop]
    rfl
  · rw [maxCutLoop, recvCut_full (by rw [hc]; exact hl), hc]
    dsimp only
    rw [recvCut_full (by rw [List.length_replicate, List.length_drop]; unfold maxRec at hs; omega), known_some, Option.bind_some]
    dsimp only
    rw [known_some, List.length_replicate, List.drop_drop]
    simp only [Option.map_some, Bool.not_true, Bool.or_false]
    split
    · rfl
    · rfl

/-- The key seen when the connection ends after `rest`, the key before being `last`. -/
def cutKey (last rest : Bytes) : Bytes := rest.take pkLength ++ last.drop rest.length

theorem cutKey_length {last rest : Bytes} (h : last.length = pkLength) : (cutKey last rest).length = pkLength := by
  unfold cutKey; simp; omega

theorem recvCut_key {last : Bytes} (h : last.length = pkLength) (s : Bytes) : (recvCut (last.map some) s).1 = (cutKey last s).map some := by
  by_cases hs : s.length < pkLength
  · rw [recvCut_short (by simpa [h] using hs), cutKey, List.take_of_length_le (by omega)]; simp
  · rw [recvCut_full (by simpa [h] using hs), cutKey, List.drop_eq_nil_of_le (as := last) (by omega)]; simp [h]

theorem cutKey_nil {last : Bytes} (_h : last.length = pkLength) : cutKey last [] = last := by simp [cutKey]

theorem recvCut_rest {last : Bytes} (h : last.length = pkLength) (s : Bytes) : (recvCut (last.map some) s).2 = s.drop pkLength := by
  by_cases hs : s.length < pkLength
  · rw [recvCut_short (by simpa [h] using hs), List.drop_eq_nil_of_le (as := s) (by omega)]
  · rw [recvCut_full (by simpa [h] using hs)]; simp [h]

theorem max_seen {B : ℕ} (b : Bytes) (hb : b.length = pkLength) (m : Map (Option (List U64))) (hm : (m.lookup b).isSome = true) :
    ∀ t, maxCutLoop B t (b.map some) [] m = some m
  | 0 => rfl
  | t + 1 => by
    rw [maxCutLoop]
    dsimp only
    rw [recvCut_key hb, recvCut_rest hb, cutKey_nil hb, known_some, Option.bind_some, if_pos hm]
    rw [recvCut_short (by simp)]
    exact max_seen b hb m hm t

/-- The first incomplete submission is stored with a row that must not be read, the later iterations change nothing. -/
theorem max_short {B t : ℕ} (b : Bytes) (hb : b.length = pkLength) {s : Bytes} (hs : s.length < maxRec B) (m : Map (Option (List U64))) :
    maxCutLoop B (t + 1) (b.map some) s m = some (if (m.lookup (cutKey b s)).isSome || !true then m else m ++ [(cutKey b s, none)]) := by
  rw [maxCutLoop]
  dsimp only
  have hr : (s.drop pkLength).length < (List.replicate (8 * (B + 1)) (none : Option Byte)).length := by
    rw [List.length_drop, List.length_replicate]; unfold maxRec at hs; omega
  rw [recvCut_key hb, recvCut_rest hb, known_some, Option.bind_some, recvCut_short hr]
  dsimp only
  have hn : known (List.map some (s.drop pkLength) ++ List.drop (s.drop pkLength).length (List.replicate (8 * (B + 1)) (none : Option Byte))) = none := by
    apply known_none
    rw [List.length_replicate] at hr
    simp only [List.drop_replicate, List.mem_append, List.mem_replicate]
    exact Or.inr ⟨by omega, trivial⟩
  rw [hn]
  simp only [Bool.not_true, Bool.or_false, Option.map_none]
  split
  · exact max_seen _ (cutKey_length hb) _ (by assumption) t
  · exact max_seen _ (cutKey_length hb) _ (by rw [lookup_isSome_iff]; simp [Map.keys]) t

/-- The submissions of `max_op` that the loop sees: the complete ones, and, if there are fewer than announced, a last one without a row. -/
def maxSeen (B total : ℕ) (last s : Bytes) (l : List (Bytes × List U64)) : List (Bytes × Option (List U64)) :=
  l.map wrapRow ++ if l.length < total then [(cutKey ((l.map (·.1)).getLastD last) (s.drop (l.length * maxRec B)), none)] else []

theorem max_loop {B : ℕ} : ∀ (t : ℕ) (b s : Bytes) (m : Map (Option (List U64))), b.length = pkLength →
    maxCutLoop B t (b.map some) s m = (whole (rdMaxShare B) (maxRec B) t s).map fun l => admit (fun _ => true) (maxSeen B t b s l) m
  | 0, _, _, _, _ => by rw [whole_zero]; rfl
  | t + 1, b, s, m, hb => by
    by_cases hs : s.length < maxRec B
    · rw [max_short b hb hs, whole_short hs, Option.map_some]
      simp only [maxSeen, List.map_nil, List.length_nil, Nat.zero_lt_succ, if_true, List.nil_append, List.getLastD_nil, Nat.zero_mul, List.drop_zero]
      rw [admit_one]; rfl
    · obtain ⟨e, he, hk, hstep⟩ := max_step (t := t) (ck := b.map some) (by simpa using hb) (not_lt.1 hs) m
      have hlen : e.1.length = pkLength := by
        rw [hk, List.length_take, Nat.min_eq_left]; have := not_lt.1 hs; unfold maxRec at this; omega
      rw [hstep, max_loop t _ _ _ hlen, whole_step (maxRec_pos _) (not_lt.1 hs) he, Option.map_map]
      congr 1
      funext l
      rw [Function.comp]
      have : maxSeen B (t + 1) b s (e :: l) = wrapRow e :: maxSeen B t e.1 (s.drop (maxRec B)) l := by
        unfold maxSeen
        simp only [List.map_cons, List.length_cons, Nat.add_lt_add_iff_right, List.cons_append, List.drop_drop]
        rw [show (l.length + 1) * maxRec B = maxRec B + l.length * maxRec B by ring, List.getLastD_cons]
      rw [this, admit_one]
      rfl

/-! ## freq_op -/

/-- The size of a submission (server.cpp:1218-1221). -/
def freqRec (w : ℕ) : ℕ := pkLength + (w + 7) / 8

theorem freqRec_pos (w : ℕ) : 0 < freqRec w := by unfold freqRec pkLength; omega

theorem freshCells_length (n : ℕ) (f : ℕ → Option Byte) : (freshCells n f).length = n := by simp [freshCells]

theorem freshCells_some (n : ℕ) (g : ℕ → Byte) : freshCells n (fun j => some (g j)) = ((List.range n).map g).map some := by
  simp [freshCells]

theorem freshCells_short {n : ℕ} {f : ℕ → Option Byte} (hf : ∀ j < n, f j = none) {s : Bytes} (h : s.length < n) :
    known (recvCut (freshCells n f) s).1 = none := by
  rw [recvCut_short (by rw [freshCells_length]; exact h)]
  apply known_none
  refine List.mem_append_right _ ?_
  unfold freshCells
  rw [← List.map_drop, List.mem_map]
  refine ⟨n - 1, ?_, hf _ (by omega)⟩
  rw [List.mem_iff_getElem]
  exact ⟨n - 1 - s.length, by simp; omega, by simp; omega⟩

theorem freq_step {w t i : ℕ} {fresh : ℕ → ℕ → Option Byte} {ck : Cells} (hc : ck.length = pkLength) {s : Bytes} (hs : freqRec w ≤ s.length)
    (m : Map (List Bool)) :
    ∃ e, (rdFreqShare w).run s = some (e, s.drop (freqRec w)) ∧ e.1 = s.take pkLength ∧ freqCutLoop w fresh (t + 1) i ck s m =
      freqCutLoop w fresh t (i + 1) (e.1.map some) (s.drop (freqRec w)) (if (m.lookup e.1).isSome || !true then m else m ++ [e]) := by
  have hl : pkLength ≤ s.length := by unfold freqRec at hs; omega
  refine ⟨(s.take pkLength, (List.range w).map (unpackBit ((s.drop pkLength).take ((w + 7) / 8)))), ?_, rfl, ?_⟩
  · unfold rdFreqShare rdBools
    simp only [Rd.bind, Rd.run]
    rw [if_neg (by omega), if_neg (by rw [List.length_drop]; unfold freqRec at hs; omega), List.drop_drop]
    rfl
  · rw [freqCutLoop, recvCut_full (by rw [hc]; exact hl), hc]
    dsimp only
    rw [recvCut_full (by rw [freshCells_length, List.length_drop]; unfold freqRec at hs; omega), known_some, Option.bind_some]
    dsimp only
    rw [known_some, freshCells_length, List.drop_drop, Option.bind_some]
    simp only [Bool.not_true, Bool.or_false]
    split
    · rfl
    · rfl

theorem freq_seen {w : ℕ} (g : ℕ → ℕ → Byte) (b : Bytes) (hb : b.length = pkLength) (m : Map (List Bool)) (hm : (m.lookup b).isSome = true) :
    ∀ t i, freqCutLoop w (fun i j => some (g i j)) t i (b.map some) [] m = some m
  | 0, _ => rfl
  | t + 1, i => by
    rw [freqCutLoop]
    rw [recvCut_key hb, recvCut_rest hb, cutKey_nil hb, known_some, Option.bind_some, freshCells_some, List.drop_nil]
    obtain ⟨b', -, e⟩ := recvCut_known ((List.range ((w + 7) / 8)).map (g i)) []
    rw [e, known_some, Option.bind_some, if_pos hm]
    have : (recvCut (((List.range ((w + 7) / 8)).map (g i)).map some) []).2 = [] := by
      unfold recvCut; split <;> simp
    rw [this]
    exact freq_seen g b hb m hm t (i + 1)

/-- The bits seen in an incomplete submission: those received, then what the memory held. -/
def cutBits (w : ℕ) (g : ℕ → Byte) (rest : Bytes) : List Bool :=
  (List.range w).map (unpackBit (rest.drop pkLength ++ (((List.range ((w + 7) / 8)).map g).drop (rest.length - pkLength))))

theorem freq_short {w t i : ℕ} (g : ℕ → ℕ → Byte) (b : Bytes) (hb : b.length = pkLength) {s : Bytes} (hs : s.length < freqRec w)
    (m : Map (List Bool)) : freqCutLoop w (fun i j => some (g i j)) (t + 1) i (b.map some) s m =
      some (if (m.lookup (cutKey b s)).isSome || !true then m else m ++ [(cutKey b s, cutBits w (g i) s)]) := by
  rw [freqCutLoop]
  have hr : (s.drop pkLength).length < (((List.range ((w + 7) / 8)).map (g i)).map some).length ∨ (w + 7) / 8 = 0 ∧ (s.drop pkLength) = [] := by
    unfold freqRec at hs
    simp only [List.length_drop, List.length_map, List.length_range, List.drop_eq_nil_iff]
    omega
  have key : recvCut (((List.range ((w + 7) / 8)).map (g i)).map some) (s.drop pkLength) =
      ((s.drop pkLength ++ ((List.range ((w + 7) / 8)).map (g i)).drop (s.length - pkLength)).map some, []) := by
    rcases hr with hr | ⟨h0, hr⟩
    · rw [recvCut_short hr]; simp
    · rw [h0, hr]; simp [recvCut]
  rw [recvCut_key hb, recvCut_rest hb, known_some, Option.bind_some, freshCells_some, key]
  dsimp only
  rw [known_some, Option.bind_some]
  simp only [Bool.not_true, Bool.or_false]
  split
  · exact freq_seen g _ (cutKey_length hb) _ (by assumption) t _
  · exact freq_seen g _ (cutKey_length hb) _ (by rw [lookup_isSome_iff]; simp [Map.keys]) t _

/-- The submissions of `freq_op` that the loop sees. -/
def freqSeen (w total i : ℕ) (g : ℕ → ℕ → Byte) (last s : Bytes) (l : List (Bytes × List Bool)) : List (Bytes × List Bool) :=
  l ++ if l.length < total then
    [(cutKey ((l.map (·.1)).getLastD last) (s.drop (l.length * freqRec w)), cutBits w (g (i + l.length)) (s.drop (l.length * freqRec w)))] else []

theorem freq_loop {w : ℕ} (g : ℕ → ℕ → Byte) : ∀ (t i : ℕ) (b s : Bytes) (m : Map (List Bool)), b.length = pkLength →
    freqCutLoop w (fun i j => some (g i j)) t i (b.map some) s m =
      (whole (rdFreqShare w) (freqRec w) t s).map fun l => admit (fun _ => true) (freqSeen w t i g b s l) m
  | 0, _, _, _, _, _ => by rw [whole_zero]; rfl
  | t + 1, i, b, s, m, hb => by
    by_cases hs : s.length < freqRec w
    · rw [freq_short g b hb hs, whole_short hs, Option.map_some]
      simp only [freqSeen, List.map_nil, List.length_nil, Nat.zero_lt_succ, if_true, List.nil_append, List.getLastD_nil, Nat.zero_mul, List.drop_zero]
      rw [admit_one]; rfl
    · obtain ⟨e, he, hk, hstep⟩ := freq_step (t := t) (i := i) (fresh := fun i j => some (g i j)) (ck := b.map some) (by simpa using hb) (not_lt.1 hs) m
      have hlen : e.1.length = pkLength := by
        rw [hk, List.length_take, Nat.min_eq_left]; have := not_lt.1 hs; unfold freqRec at this; omega
      rw [hstep, freq_loop g t _ _ _ _ hlen, whole_step (freqRec_pos _) (not_lt.1 hs) he, Option.map_map]
      congr 1
      funext l
      rw [Function.comp]
      have : freqSeen w (t + 1) i g b s (e :: l) = e :: freqSeen w t (i + 1) g e.1 (s.drop (freqRec w)) l := by
        unfold freqSeen
        simp only [List.map_cons, List.length_cons, Nat.add_lt_add_iff_right, List.cons_append, List.drop_drop]
        rw [show (l.length + 1) * freqRec w = freqRec w + l.length * freqRec w by ring, List.getLastD_cons,
          show i + (l.length + 1) = i + 1 + l.length by ring]
      rw [this, admit_one]

/-- Strictly, an incomplete submission is undefined. -/
theorem freq_strict {w : ℕ} (hw : 0 < w) (fresh : ℕ → ℕ → Option Byte) (hf : ∀ i j, fresh i j = none) : ∀ (t i : ℕ) (ck : Cells) (s : Bytes)
    (m : Map (List Bool)), ck.length = pkLength → s.length < t * freqRec w → freqCutLoop w fresh t i ck s m = none
  | 0, _, _, s, _, _, h => by omega
  | t + 1, i, ck, s, m, hc, h => by
    by_cases hs : s.length < freqRec w
    · rw [freqCutLoop]
      have : known (recvCut (freshCells ((w + 7) / 8) (fresh i)) (recvCut ck s).2).1 = none := by
        refine freshCells_short (fun j _ => hf i j) ?_
        unfold recvCut freqRec at *
        rw [hc]
        split
        · simp; omega
        · rw [List.length_drop]; omega
      rw [this]
      cases known (recvCut ck s).1 with
      | none => rfl
      | some _ => rfl
    · obtain ⟨e, -, hk, hstep⟩ := freq_step (t := t) (i := i) (fresh := fresh) hc (not_lt.1 hs) m
      rw [hstep]
      refine freq_strict hw fresh hf t _ _ _ _ ?_ ?_
      · rw [List.length_map, hk, List.length_take, Nat.min_eq_left]; have := not_lt.1 hs; unfold freqRec at this; omega
      · rw [List.length_drop]; rw [Nat.succ_mul] at h; omega

/-! ## linreg_op -/

/-- The part of a submission before the packet (server.cpp:937-947). -/
def linHead (d : ℕ) : ℕ := pkLength + 8 * (d - 1) + 8 + 8 * numQuad d + 8 * (d - 1)

/-- The size of a submission. -/
def linSize (d nMul : ℕ) : ℕ := linHead d + 8 * (nMul + npow2 nMul + 6)

theorem linSize_pos (d nMul : ℕ) : 0 < linSize d nMul := by unfold linSize linHead pkLength; omega

theorem lin_step {d nMul t i : ℕ} {mx : U64} {fresh : ℕ → ℕ → Option Byte} {ck cy : Cells} (hc : ck.length = pkLength) (hy : cy.length = 8) {s : Bytes}
    (hs : linSize d nMul ≤ s.length) (m : Map LinRow) :
    ∃ e, (rdLinShare d nMul).run s = some (e, s.drop (linSize d nMul)) ∧ e.1 = s.take pkLength ∧ linCutLoop d nMul mx fresh (t + 1) i ck cy s m =
      linCutLoop d nMul mx fresh t (i + 1) (e.1.map some) ((rawWord e.2.y).map some) (s.drop (linSize d nMul))
        (if (m.lookup e.1).isSome || !linOk mx e.2 then m else m ++ [e]) := by
  have hs' : pkLength + 8 * (d - 1) + 8 + 8 * numQuad d + 8 * (d - 1) + 8 * (nMul + npow2 nMul + 6) ≤ s.length := hs
  obtain ⟨k, hk, hp⟩ := packetCut_full (nMul := nMul) (s := s.drop (linHead d)) (by rw [List.length_drop]; unfold linHead; omega)
  rw [List.drop_drop] at hk hp
  have a1 : (s.drop pkLength).drop (8 * (d - 1)) = s.drop (pkLength + 8 * (d - 1)) := List.drop_drop ..
  have a2 : (s.drop (pkLength + 8 * (d - 1))).drop 8 = s.drop (pkLength + 8 * (d - 1) + 8) := List.drop_drop ..
  have a3 : (s.drop (pkLength + 8 * (d - 1) + 8)).drop (8 * numQuad d) = s.drop (pkLength + 8 * (d - 1) + 8 + 8 * numQuad d) := List.drop_drop ..
  have a4 : (s.drop (pkLength + 8 * (d - 1) + 8 + 8 * numQuad d)).drop (8 * (d - 1)) = s.drop (linHead d) := List.drop_drop ..
  refine ⟨(s.take pkLength, ⟨wordsOf (d - 1) ((s.drop pkLength).take (8 * (d - 1))),
    htonll (BitVec.ofNat 64 (leVal ((s.drop (pkLength + 8 * (d - 1))).take 8))),
    wordsOf (numQuad d) ((s.drop (pkLength + 8 * (d - 1) + 8)).take (8 * numQuad d)),
    wordsOf (d - 1) ((s.drop (pkLength + 8 * (d - 1) + 8 + 8 * numQuad d)).take (8 * (d - 1))), k⟩), ?_, rfl, ?_⟩
  · unfold rdLinShare rdWords rdU64
    simp only [Rd.bind, Rd.run]
    rw [if_neg (by omega), if_neg (by rw [List.length_drop]; omega), a1, if_neg (by rw [List.length_drop]; omega), a2,
      if_neg (by rw [List.length_drop]; omega), a3, if_neg (by rw [List.length_drop]; omega), a4, Rd.run_bind, hk]
    rfl
  · rw [linCutLoop]
    have c1 : recvCut ck s = ((s.take pkLength).map some, s.drop pkLength) := by rw [recvCut_full (by omega), hc]
    have c2 : recvCut (freshCells (8 * (d - 1)) (fresh (3 * i))) (s.drop pkLength) =
        (((s.drop pkLength).take (8 * (d - 1))).map some, s.drop (pkLength + 8 * (d - 1))) := by
      rw [recvCut_full (by rw [freshCells_length, List.length_drop]; omega), freshCells_length, a1]
    have c3 : recvCut cy (s.drop (pkLength + 8 * (d - 1))) =
        (((s.drop (pkLength + 8 * (d - 1))).take 8).map some, s.drop (pkLength + 8 * (d - 1) + 8)) := by
      rw [recvCut_full (by rw [hy, List.length_drop]; omega), hy, a2]
    have c4 : recvCut (freshCells (8 * numQuad d) (fresh (3 * i + 1))) (s.drop (pkLength + 8 * (d - 1) + 8)) =
        (((s.drop (pkLength + 8 * (d - 1) + 8)).take (8 * numQuad d)).map some, s.drop (pkLength + 8 * (d - 1) + 8 + 8 * numQuad d)) := by
      rw [recvCut_full (by rw [freshCells_length, List.length_drop]; omega), freshCells_length, a3]
    have c5 : recvCut (freshCells (8 * (d - 1)) (fresh (3 * i + 2))) (s.drop (pkLength + 8 * (d - 1) + 8 + 8 * numQuad d)) =
        (((s.drop (pkLength + 8 * (d - 1) + 8 + 8 * numQuad d)).take (8 * (d - 1))).map some, s.drop (linHead d)) := by
      rw [recvCut_full (by rw [freshCells_length, List.length_drop]; omega), freshCells_length, a4]
    simp only [c1, c2, c3, c4, c5, hp, known_some, Option.bind_some]
    rw [show linHead d + 8 * (nMul + npow2 nMul + 6) = linSize d nMul from rfl]
    split <;> simp [*]

theorem lin_short {d nMul : ℕ} {mx : U64} (g : ℕ → ℕ → Byte) : ∀ (t i : ℕ) (b y s : Bytes) (m : Map LinRow), b.length = pkLength → y.length = 8 →
    s.length < linSize d nMul → linCutLoop d nMul mx (fun i j => some (g i j)) t i (b.map some) (y.map some) s m = some m
  | 0, _, _, _, _, _, _, _, _ => rfl
  | t + 1, i, b, y, s, m, hb, hy, hs => by
    rw [linCutLoop]
    have drops : ∀ (c : Cells) (s : Bytes), (recvCut c s).2 = s.drop c.length := by
      intro c s
      by_cases h : s.length < c.length
      · rw [recvCut_short h, List.drop_eq_nil_of_le (as := s) (by omega)]
      · rw [recvCut_full (by omega)]
    obtain ⟨b1, hb1, e1⟩ := recvCut_known b s
    simp only [freshCells_some]
    obtain ⟨b2, -, e2⟩ := recvCut_known ((List.range (8 * (d - 1))).map (g (3 * i))) (recvCut (b.map some) s).2
    obtain ⟨b3, hb3, e3⟩ := recvCut_known y (recvCut (((List.range (8 * (d - 1))).map (g (3 * i))).map some) (recvCut (b.map some) s).2).2
    simp only [e1, drops, known_some, Option.bind_some, List.drop_drop, List.length_map, List.length_range, hb, hy]
    obtain ⟨b4, -, e4⟩ := recvCut_known ((List.range (8 * numQuad d)).map (g (3 * i + 1))) (s.drop (pkLength + 8 * (d - 1) + 8))
    obtain ⟨b5, -, e5⟩ := recvCut_known ((List.range (8 * (d - 1))).map (g (3 * i + 2))) (s.drop (pkLength + 8 * (d - 1) + 8 + 8 * numQuad d))
    rw [drops] at e2 e3
    simp only [drops, List.drop_drop, List.length_map, List.length_range, hb] at e2 e3
    simp only [e2, e3, e4, e5, known_some, Option.bind_some]
    rw [packetCut_short (by rw [List.length_drop]; unfold linSize linHead at hs; omega)]
    exact lin_short g t (i + 1) b1 _ [] m (by rw [hb1, hb]) (rawWord_length _) (linSize_pos d nMul)

theorem lin_known {d nMul : ℕ} {mx : U64} (g : ℕ → ℕ → Byte) : ∀ (t i : ℕ) (b y s : Bytes) (m : Map LinRow), b.length = pkLength → y.length = 8 →
    linCutLoop d nMul mx (fun i j => some (g i j)) t i (b.map some) (y.map some) s m =
      (whole (rdLinShare d nMul) (linSize d nMul) t s).map fun l => admit (linOk mx) l m
  | 0, _, _, _, _, _, _, _ => by rw [whole_zero]; rfl
  | t + 1, i, b, y, s, m, hb, hy => by
    by_cases hs : s.length < linSize d nMul
    · rw [lin_short g _ _ _ _ _ _ hb hy hs, whole_short hs]; rfl
    · obtain ⟨e, he, hk, hstep⟩ := lin_step (mx := mx) (t := t) (i := i) (fresh := fun i j => some (g i j)) (ck := b.map some) (cy := y.map some)
        (by simpa using hb) (by simpa using hy) (not_lt.1 hs) m
      have hlen : e.1.length = pkLength := by
        rw [hk, List.length_take, Nat.min_eq_left]; have := not_lt.1 hs; unfold linSize linHead at this; omega
      rw [hstep, lin_known g t _ _ _ _ _ hlen (rawWord_length _), whole_step (linSize_pos _ _) (not_lt.1 hs) he, Option.map_map]
      congr 1
      funext l
      rw [Function.comp, admit_one]

theorem recvCut_drop (c : Cells) (s : Bytes) : (recvCut c s).2 = s.drop c.length := by
  by_cases h : s.length < c.length
  · rw [recvCut_short h, List.drop_eq_nil_of_le (as := s) (by omega)]
  · rw [recvCut_full (by omega)]

/-- What an iteration does that receives all arrays but not the whole packet. -/
theorem lin_dropped {d nMul t i : ℕ} {mx : U64} {fresh : ℕ → ℕ → Option Byte} {ck cy : Cells} (hc : ck.length = pkLength) (hy : cy.length = 8) {s : Bytes}
    (hh : linHead d ≤ s.length) (hs : s.length < linSize d nMul) (m : Map LinRow) :
    ∃ ck' cy' : Cells, ck'.length = pkLength ∧ cy'.length = 8 ∧ linCutLoop d nMul mx fresh (t + 1) i ck cy s m =
        linCutLoop d nMul mx fresh t (i + 1) ck' cy' [] m := by
  unfold linHead at hh
  have full : ∀ (c : Cells) (n k : ℕ), c.length = k → n + k ≤ s.length → recvCut c (s.drop n) = (((s.drop n).take k).map some, s.drop (n + k)) := by
    intro c n k hk hl
    rw [recvCut_full (by rw [List.length_drop]; omega), hk, List.drop_drop]
  have c1 := full ck 0 pkLength hc (by omega)
  rw [List.drop_zero, Nat.zero_add] at c1
  rw [linCutLoop]
  simp only [c1, full _ pkLength _ (freshCells_length (8 * (d - 1)) (fresh (3 * i))) (by omega),
    full _ (pkLength + 8 * (d - 1)) _ hy (by omega), full _ (pkLength + 8 * (d - 1) + 8) _ (freshCells_length (8 * numQuad d) (fresh (3 * i + 1))) (by omega),
    full _ (pkLength + 8 * (d - 1) + 8 + 8 * numQuad d) _ (freshCells_length (8 * (d - 1)) (fresh (3 * i + 2))) (by omega), known_some, Option.bind_some]
  rw [packetCut_short (by rw [List.length_drop]; unfold linSize linHead at hs; omega)]
  exact ⟨_, _, by simp; omega, by simp, rfl⟩

/-- An array that is not received completely is undefined. -/
theorem lin_head_none {d nMul t i : ℕ} (hd : 2 ≤ d) {mx : U64} {fresh : ℕ → ℕ → Option Byte} (hf : ∀ i j, fresh i j = none) {ck cy : Cells}
    (hc : ck.length = pkLength) (hy : cy.length = 8) {s : Bytes} (hs : s.length < linHead d) (m : Map LinRow) :
    linCutLoop d nMul mx fresh (t + 1) i ck cy s m = none := by
  rw [linCutLoop]
  have h5 : known (recvCut (freshCells (8 * (d - 1)) (fresh (3 * i + 2))) (recvCut (freshCells (8 * numQuad d) (fresh (3 * i + 1)))
      (recvCut cy (recvCut (freshCells (8 * (d - 1)) (fresh (3 * i))) (recvCut ck s).2).2).2).2).1 = none := by
    refine freshCells_short (fun j _ => hf _ j) ?_
    simp only [recvCut_drop, List.length_drop, freshCells_length, hc, hy]
    unfold linHead at hs
    omega
  simp only [h5, Option.bind_none]
  cases known (recvCut ck s).1 with
  | none => rfl
  | some _ =>
    rw [Option.bind_some]
    cases known (recvCut (freshCells (8 * (d - 1)) (fresh (3 * i))) (recvCut ck s).2).1 with
    | none => rfl
    | some _ =>
      rw [Option.bind_some]
      simp

/-- With everything but the last packet received, all submissions are defined, whatever the memory held. -/
theorem lin_defined {d nMul : ℕ} {mx : U64} {fresh : ℕ → ℕ → Option Byte} : ∀ (t i : ℕ) (ck cy : Cells) (s : Bytes) (m : Map LinRow), ck.length = pkLength →
    cy.length = 8 → t * linSize d nMul + linHead d ≤ s.length → linCutLoop d nMul mx fresh (t + 1) i ck cy s m =
      (whole (rdLinShare d nMul) (linSize d nMul) (t + 1) s).map fun l => admit (linOk mx) l m := by
  intro t
  induction t with
  | zero =>
    intro i ck cy s m hc hy hs
    by_cases h : s.length < linSize d nMul
    · obtain ⟨_, _, -, -, e⟩ := lin_dropped (t := 0) (i := i) (mx := mx) (fresh := fresh) hc hy (by omega) h m
      rw [e, whole_short h]; rfl
    · obtain ⟨e, he, -, hstep⟩ := lin_step (mx := mx) (t := 0) (i := i) (fresh := fresh) hc hy (not_lt.1 h) m
      rw [hstep, whole_step (linSize_pos _ _) (not_lt.1 h) he, whole_zero]
      simp only [Option.map_some]
      rw [admit_one]; rfl
  | succ t ih =>
    intro i ck cy s m hc hy hs
    have h : linSize d nMul ≤ s.length := by rw [Nat.succ_mul] at hs; omega
    obtain ⟨e, he, hk, hstep⟩ := lin_step (mx := mx) (t := t + 1) (i := i) (fresh := fresh) hc hy h m
    have hlen : e.1.length = pkLength := by
      rw [hk, List.length_take, Nat.min_eq_left]; unfold linSize linHead at h; omega
    rw [hstep, ih _ _ _ _ _ (by simpa using hlen) (by simp) (by rw [List.length_drop]; rw [Nat.succ_mul] at hs; omega),
      whole_step (linSize_pos _ _) h he, Option.map_map]
    congr 1
    funext l
    rw [Function.comp, admit_one]

/-- With less, reading the arrays is undefined. -/
theorem lin_strict {d nMul : ℕ} (hd : 2 ≤ d) {mx : U64} {fresh : ℕ → ℕ → Option Byte} (hf : ∀ i j, fresh i j = none) : ∀ (t i : ℕ) (ck cy : Cells) (s : Bytes)
    (m : Map LinRow), ck.length = pkLength → cy.length = 8 → s.length < t * linSize d nMul + linHead d →
    linCutLoop d nMul mx fresh (t + 1) i ck cy s m = none := by
  intro t
  induction t with
  | zero => intro i ck cy s m hc hy hs; exact lin_head_none hd hf hc hy (by omega) m
  | succ t ih =>
    intro i ck cy s m hc hy hs
    by_cases h1 : s.length < linHead d
    · exact lin_head_none hd hf hc hy h1 m
    by_cases h2 : s.length < linSize d nMul
    · obtain ⟨ck', cy', hc', hy', e⟩ := lin_dropped (t := t + 1) (i := i) (mx := mx) (fresh := fresh) hc hy (by omega) h2 m
      rw [e]
      exact lin_head_none hd hf hc' hy' (by unfold linHead pkLength; simp) m
    · obtain ⟨e, he, hk, hstep⟩ := lin_step (mx := mx) (t := t + 1) (i := i) (fresh := fresh) hc hy (not_lt.1 h2) m
      have hlen : e.1.length = pkLength := by
        rw [hk, List.length_take, Nat.min_eq_left]; have := not_lt.1 h2; unfold linSize linHead at this; omega
      rw [hstep]
      exact ih _ _ _ _ _ (by simpa using hlen) (by simp) (by rw [List.length_drop]; rw [Nat.succ_mul] at hs; omega)

end Verif

import Verif.ModelPrintMain
import Verif.PropsPrint
import Verif.PropsDeploy

/-!
# C86, continued: the client's and the server's output agree
-/

namespace Verif

/-- What follows the first colon; the whole text if there is none. -/
def report (t : Text) : Text := if ':' ∈ t then (t.dropWhile fun c => c != ':').tail else t

theorem report_append {l t : Text} (h : ':' ∉ l) : report (l ++ ':' :: t) = t := by
  unfold report
  rw [if_pos (by simp), List.dropWhile_append_of_pos fun c hc => by simp only [bne_iff_ne, ne_eq]; rintro rfl; exact h hc]
  simp

theorem report_ans (t : Text) : report (ansLine t) = ' ' :: (t ++ ['\n']) := by
  have : ansLine t = "Ans".toList ++ ':' :: (' ' :: (t ++ ['\n'])) := by simp [ansLine]
  rw [this, report_append (by decide)]

theorem report_client (t : Text) : report (clientLine t) = ' ' :: (t ++ ['\n']) := by
  have : clientLine t = "Ans ".toList ++ ':' :: (' ' :: (t ++ ['\n'])) := by simp [clientLine]
  rw [this, report_append (by decide)]

theorem report_true (t : Text) : report (trueLine t) = ' ' :: (t ++ ['\n']) := by
  have e : "True Ans: ".toList = ['T', 'r', 'u', 'e', ' ', 'A', 'n', 's'] ++ [':', ' '] := by decide
  have : trueLine t = ['T', 'r', 'u', 'e', ' ', 'A', 'n', 's'] ++ ':' :: (' ' :: (t ++ ['\n'])) :=
    (congrArg (fun z => z ++ t ++ ['\n']) e).trans (by simp)
  rw [this, report_append (by decide)]

/-- C86: equal answers are printed as equal texts behind the label. -/
theorem C86_same (toD : ℚ → ℝ) {shown : Shown} {a : Answer} (h : SameAnswer shown a) :
    (clientText toD shown).map report = (serverText toD a).map report := by
  unfold SameAnswer at h
  split at h
  · simp only [clientText, serverText, textOf, Option.map_some, report_ans, report_client, h]
  · simp only [clientText, serverText, textOf, Option.map_some, report_ans, report_client, h]
  · simp only [clientText, serverText, textOf, Option.map_some, report_ans, report_client, h]
  · simp only [clientText, serverText, textOf, Option.map_some, report_ans, report_client, h]
  · subst h
    rename_i a
    cases a with
    | none => rfl
    | some x => simp only [clientText, serverText, textOf, Option.map_some, report_ans, report_true]
  · subst h
    simp only [clientText, serverText, textOf]
  · subst h
    simp only [clientText, serverText, textOf]
  · exact h.elim

/-- A server without an answer prints none. -/
theorem C86_quiet (toD : ℚ → ℝ) {a : Answer} (h : NoAnswer a) : serverText toD a = some [] := by
  unfold NoAnswer at h
  split at h <;> first | rfl | exact h.elim

/-- The server found too many submissions invalid. -/
def GaveUp : Answer → Prop
  | .word .invalid | .flag .invalid | .nat .invalid | .real .invalid | .lin .invalid | .hist .invalid => True
  | _ => False

/-- A batch that was given up gets no answer line, not even a wrong one. -/
theorem C86_refused (toD : ℚ → ℝ) {a : Answer} (h : GaveUp a) : serverText toD a = some [] := by
  unfold GaveUp at h
  split at h <;> first | rfl | exact h.elim

/-- The report of a run: what the client prints, and that server 0 prints the same. -/
def ClientRun.Printed (toD : ℚ → ℝ) (r : ClientRun) (a : Answer) : Prop :=
  ∃ shown tc ts, clientMain r.env r.argv = .sent r.e0.stream r.e1.stream shown ∧ r.Correct shown ∧ clientText toD shown = some tc ∧
    serverText toD a = some ts ∧ report tc = report ts

theorem ClientRun.Answered.printed (toD : ℚ → ℝ) {r : ClientRun} {a : Answer} (h : r.Answered a)
    (hdet : r.op = .linReg → (normalMatrix r.d r.points).det ≠ 0) : r.Printed toD a := by
  obtain ⟨shown, h1, h2, h3⟩ := h
  have hs := C86_same toD h3
  have hc : ∃ tc, clientText toD shown = some tc := by
    unfold ClientRun.Correct at h2
    split at h2
    · obtain ⟨v, rfl, -⟩ := h2; exact ⟨_, rfl⟩
    · subst h2; exact ⟨_, rfl⟩
    · subst h2; exact ⟨_, rfl⟩
    · subst h2; exact ⟨_, rfl⟩
    · obtain ⟨v, rfl, -⟩ := h2; exact ⟨_, rfl⟩
    · obtain ⟨v, rfl, -⟩ := h2; exact ⟨_, rfl⟩
    · obtain ⟨_, v, -, rfl, -⟩ := h2; exact ⟨_, rfl⟩
    · obtain ⟨_, v, -, rfl, -⟩ := h2; exact ⟨_, rfl⟩
    · next ho => obtain ⟨co, rfl, -⟩ := h2.2 (hdet ho); exact ⟨_, rfl⟩
    · subst h2; exact ⟨_, rfl⟩
  obtain ⟨tc, htc⟩ := hc
  rw [htc, Option.map_some] at hs
  obtain ⟨ts, hts, e⟩ := Option.map_eq_some_iff.1 hs.symm
  exact ⟨shown, tc, ts, h1, h2, htc, hts, e.symm⟩

theorem printed_all (toD : ℚ → ℝ) {rs : List ClientRun} {as : List Answer} (ha : List.Forall₂ ClientRun.Answered rs as)
    (hdet : ∀ r ∈ rs, r.op = .linReg → (normalMatrix r.d r.points).det ≠ 0) : List.Forall₂ (ClientRun.Printed toD) rs as := by
  induction ha with
  | nil => exact .nil
  | cons h _ ih => exact .cons (h.printed toD (hdet _ List.mem_cons_self)) (ih fun r hr => hdet r (List.mem_cons_of_mem _ hr))

/-- C86 for a deployment (C84): for every run of the client, server 0 prints what the client prints, up to the label, and server 1 prints no answer.
For LINREG the normal equations have to be solvable. -/
theorem C86_session (toD : ℚ → ℝ) {argv0 argv1 : List String} {port0 port1 link w : ℕ} (h0 : ServerAsked argv0 0 port0 link w)
    (h1 : ServerAsked argv1 1 port1 link w) {g0 g1 : StoreRng} (hg : GoodRng intModulus g0) (gen : Bytes → ℕ → ℤ) {draw : ℤ}
    (hd : Canon draw intModulus) (d0 : ℤ) (seed mine : Bytes) (rs : List ClientRun) (hr : ∀ r ∈ rs, r.Fine w ∧ r.op ≠ .freq)
    (hdet : ∀ r ∈ rs, r.op = .linReg → (normalMatrix r.d r.points).det ≠ 0) :
    ∃ P0 P1 as qs s0 s1, serverProgram argv0 g0 d0 seed.length seed gen (rs.map (·.e0)) = some P0 ∧
      serverProgram argv1 g1 draw seed.length mine gen (rs.map (·.e1)) = some P1 ∧ Always P0 P1 (as, s0) (qs, s1) ∧
      List.Forall₂ (ClientRun.Printed toD) rs as ∧ qs.length = rs.length ∧ ∀ q ∈ qs, serverText toD q = some [] := by
  obtain ⟨P0, P1, as, qs, s0, s1, p0, p1, hA, ha, hl, hq⟩ := C84_session h0 h1 (g1 := g1) hg gen hd d0 seed mine rs hr
  exact ⟨P0, P1, as, qs, s0, s1, p0, p1, hA, printed_all toD ha hdet, hl, fun q hm => C86_quiet toD (hq q hm)⟩

/-- C86 for a deployment whose last run is FREQ. -/
theorem C86_freq_last (toD : ℚ → ℝ) {argv0 argv1 : List String} {port0 port1 link w : ℕ} (h0 : ServerAsked argv0 0 port0 link w)
    (h1 : ServerAsked argv1 1 port1 link w) {g0 g1 : StoreRng} (hg : GoodRng intModulus g0) (gen : Bytes → ℕ → ℤ) {draw : ℤ}
    (hd : Canon draw intModulus) (d0 : ℤ) (seed mine : Bytes) (rs : List ClientRun) (hr : ∀ r ∈ rs, r.Fine w ∧ r.op ≠ .freq)
    (hdet : ∀ r ∈ rs, r.op = .linReg → (normalMatrix r.d r.points).det ≠ 0) {f : ClientRun} (hf : f.Fine w) (ho : f.op = .freq) :
    ∃ P0 P1 as qs s0 s1, serverProgram argv0 g0 d0 seed.length seed gen ((rs ++ [f]).map (·.e0)) = some P0 ∧
      serverProgram argv1 g1 draw seed.length mine gen ((rs ++ [f]).map (·.e1)) = some P1 ∧
      Ends P0 P1 (as, s0) (qs, s1) (encBools (List.replicate f.n true)) [] ∧
      List.Forall₂ (ClientRun.Printed toD) (rs ++ [f]) as ∧ qs.length = rs.length + 1 ∧ ∀ q ∈ qs, serverText toD q = some [] := by
  obtain ⟨P0, P1, as, qs, s0, s1, p0, p1, hA, ha, hl, hq⟩ := C84_freq_last h0 h1 (g1 := g1) hg gen hd d0 seed mine rs hr hf ho
  refine ⟨P0, P1, as, qs, s0, s1, p0, p1, hA, printed_all toD ha fun r hm hl => ?_, hl, fun q hm => C86_quiet toD (hq q hm)⟩
  rcases List.mem_append.1 hm with hm | hm
  · exact hdet r hm hl
  · rw [List.mem_singleton.1 hm, ho] at hl; cases hl

/-- Two labels, one report. -/
example : clientText (fun q => q) (.word 5#64) = some "Ans : 5\n".toList ∧ serverText (fun q => q) (.word (.ans 5#64)) = some "Ans: 5\n".toList ∧
    report "Ans : 5\n".toList = report "Ans: 5\n".toList := by
  refine ⟨?_, ?_, by decide⟩
  · simp only [clientText]; congr 1
  · simp only [serverText, textOf]; congr 1

end Verif

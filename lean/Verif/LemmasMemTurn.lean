import Verif.LemmasMemStore

/-! # Memory of a turn of the main loop -/

namespace Verif

variable {S : ℕ} {R : Multiset Block}

/-- The operations without a check, and connections that ask for nothing. -/
def Job.Plain : Job → Prop
  | .freq _ _ _ _ => False
  | _ => True

/-- The automatic arrays of the operation fit a stack of `S` bytes; at server 0 not more keys are announced than were submitted (FREQ only). -/
def Job.Fits (c : StoreCfg) (sv : Bool) (S : ℕ) : Job → Prop
  | .maxOp _ B _ => if sv then 8 * (B + 1) ≤ S else 16 * (B + 1) ≤ S
  | .freq total n _ _ => 8 * 2 ^ c.nbits ≤ S ∧ n ≤ total
  | _ => True

/-- What a FREQ query leaves behind by itself, and what other queries do. -/
def Job.shadowed (c : StoreCfg) : Job → ℕ
  | .freq total _ _ _ => total * 2 ^ c.nbits
  | _ => 0

/-- What is left behind by an operation when the store holds `s` daBits, and what the store holds after it. -/
def Job.loss (c : StoreCfg) (sv : Bool) (s : ℕ) : Job → ℕ
  | .freq total n _ refused => total * 2 ^ c.nbits + checkLoss c sv (n * 2 ^ c.nbits) s + (if refused && !sv then 16 * 2 ^ c.nbits else 0)
  | _ => 0

def Job.level (c : StoreCfg) (s : ℕ) : Job → ℕ
  | .freq _ n _ _ => checkLevel c (n * 2 ^ c.nbits) s - n * 2 ^ c.nbits
  | _ => s

theorem tri_turn (c : StoreCfg) (sv : Bool) (j : Job) (k : Keep) (hj : j.Fits c sv S) :
    Tri S (k.owned + R) (turnMem c sv j k) fun k' R' => k'.store.length = j.level c (updateLevel c k.store.length) ∧
      ∃ L, bytesOf L = updateLoss c sv k.store.length + j.loss c sv (updateLevel c k.store.length) ∧ R' = k'.owned + (L + R) := by
  unfold turnMem
  refine Tri.bind (tri_maybeUpdate c sv k) ?_
  rintro k1 _ ⟨h1, L, h2, rfl⟩
  have plain : ∀ m : Mem Unit, (∀ R, Tri S R m fun _ R' => R' = R) → Tri S (k1.owned + (L + R)) (do m; pure k1) fun k' R' =>
      k'.store.length = updateLevel c k.store.length ∧ ∃ L, bytesOf L = updateLoss c sv k.store.length + 0 ∧ R' = k'.owned + (L + R) := by
    intro m hm
    refine Tri.bind (hm _) ?_
    rintro _ _ rfl
    exact Tri.pure ⟨h1, L, h2, rfl⟩
  cases j with
  | none => exact Tri.pure ⟨h1, L, h2, rfl⟩
  | bitSum n => cases sv with
    | true => exact plain _ fun R => clean_bitSum1 n S R
    | false => exact plain _ fun R => clean_bitSum0 n S R
  | intSum n => cases sv with
    | true => exact plain _ fun R => clean_intSum1 _ n S R
    | false => exact plain _ fun R => clean_intSum0 _ n S R
  | xorOp n => cases sv with
    | true => exact plain _ fun R => clean_xorOp1 n S R
    | false => exact plain _ fun R => clean_xorOp0 n S R
  | maxOp total B n => cases sv with
    | true => exact plain _ fun R => tri_maxOp1 (by simpa [Job.Fits] using hj)
    | false => exact plain _ fun R => tri_maxOp0 (by simpa [Job.Fits] using hj)
  | freq total n single refused => cases sv with
    | true =>
      simp only [if_true]
      refine (tri_freq1 c single k1 hj.1).conseq ?_
      rintro k' _ ⟨h3, L', h4, rfl⟩
      refine ⟨by rw [h3, h1]; rfl, L' + L, ?_, by rw [add_assoc]⟩
      simp only [bytesOf_add, h4, h2, h1, Job.loss, Bool.not_true, Bool.and_false, Bool.false_eq_true, if_false]
      omega
    | false =>
      simp only [Bool.false_eq_true, if_false]
      refine (tri_freq0 c single refused k1 hj.1 hj.2).conseq ?_
      rintro k' _ ⟨h3, L', h4, rfl⟩
      refine ⟨by rw [h3, h1]; rfl, L' + L, ?_, by rw [add_assoc]⟩
      simp only [bytesOf_add, h4, h2, h1, Job.loss, Bool.not_false, Bool.and_true]
      omega

/-- The loss of a session that starts with `s` daBits in the store. -/
def sessionLoss (c : StoreCfg) (sv : Bool) : List Job → ℕ → ℕ
  | [], _ => 0
  | j :: js, s => updateLoss c sv s + j.loss c sv (updateLevel c s) + sessionLoss c sv js (j.level c (updateLevel c s))

theorem tri_turns (c : StoreCfg) (sv : Bool) : ∀ (js : List Job) (k : Keep) (_ : ∀ j ∈ js, j.Fits c sv S) (R : Multiset Block),
    Tri S (k.owned + R) (turnsMem c sv js k) fun k' R' => ∃ L, bytesOf L = sessionLoss c sv js k.store.length ∧ R' = k'.owned + (L + R)
  | [], k, _, R => Tri.pure ⟨0, rfl, by simp⟩
  | j :: js, k, h, R => by
    refine Tri.bind (tri_turn c sv j k (h j (by simp))) ?_
    rintro k1 _ ⟨h1, L, h2, rfl⟩
    refine (tri_turns c sv js k1 (fun j hj => h j (by simp [hj])) _).conseq ?_
    rintro k' _ ⟨L', h3, rfl⟩
    exact ⟨L' + L, by rw [bytesOf_add, h3, h2, h1, sessionLoss]; omega, by rw [add_assoc]⟩

theorem refillLoss_one (c : StoreCfg) (n : ℕ) : refillLoss c true n = 0 := by simp [refillLoss]

theorem checkLoss_one (c : StoreCfg) (n s : ℕ) : checkLoss c true n s = 0 := by simp [checkLoss, refillLoss_one]

theorem updateLoss_one (c : StoreCfg) (s : ℕ) : updateLoss c true s = 0 := by simp [updateLoss, refillLoss_one]

theorem sessionLoss_one (c : StoreCfg) (js : List Job) (s : ℕ) : sessionLoss c true js s = (js.map (Job.shadowed c)).sum := by
  induction js generalizing s with
  | nil => rfl
  | cons j js ih =>
    rw [sessionLoss, ih, updateLoss_one]
    cases j <;> simp [Job.loss, Job.shadowed, checkLoss_one]

theorem sessionLoss_ge (c : StoreCfg) (sv : Bool) (js : List Job) (s : ℕ) : (js.map (Job.shadowed c)).sum ≤ sessionLoss c sv js s := by
  induction js generalizing s with
  | nil => simp [sessionLoss]
  | cons j js ih =>
    rw [List.map_cons, List.sum_cons, sessionLoss]
    have h := ih (j.level c (updateLevel c s))
    have h2 : j.shadowed c ≤ j.loss c sv (updateLevel c s) := by
      cases j <;> simp only [Job.shadowed, Job.loss] <;> omega
    omega

theorem not_low_update (c : StoreCfg) (s : ℕ) : ¬ Low c (updateLevel c s) := by
  unfold updateLevel
  split
  · rename_i h
    unfold Low at *
    have h3 : 2 * c.nbits * c.batch = 2 * (c.batch * c.nbits) := by ring
    omega
  · assumption

theorem sessionLoss_plain (c : StoreCfg) (sv : Bool) (js : List Job) (hp : ∀ j ∈ js, j.Plain) (s : ℕ) (hs : ¬ Low c s) : sessionLoss c sv js s = 0 := by
  induction js with
  | nil => rfl
  | cons j js ih =>
    have h1 : updateLevel c s = s := by simp [updateLevel, hs]
    have h2 : updateLoss c sv s = 0 := by simp [updateLoss, hs]
    have h3 : j.loss c sv s = 0 ∧ j.level c s = s := by
      have := hp j (by simp)
      cases j <;> simp_all [Job.loss, Job.level, Job.Plain]
    rw [sessionLoss, h1, h2, h3.1, h3.2, ih fun j hj => hp j (by simp [hj])]

end Verif

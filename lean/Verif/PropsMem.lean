import Verif.LemmasMemTurn
import Verif.LemmasMemLin
import Verif.ModelStart

/-!
# C79: a server gives back the memory a query used

What holds: the operations without a check give everything back, in sessions of any length; nothing is released twice and nothing is used after its release, in
any operation but LINREG. What does not hold: VAR, STDDEV, LINREG and FREQ and the refill of the store at server 0 leave blocks behind, and LINREG releases
arrays with `delete`.
-/

namespace Verif

/-- A heap on which a server is about to take a connection: the blocks of `k` and others, `R`. -/
def Heap.Holds (h : Heap) (k : Keep) (R : Multiset Block) : Prop := h.Ok ∧ h.used = k.owned + R

/-- The program ends, without undefined behaviour, and apart from the blocks of what is kept and those that were there before, `n` bytes are in use. -/
def LeavesBehind (m : Mem Keep) (h : Heap) (R : Multiset Block) (n : ℕ) : Prop :=
  ∃ k' h' L, m h = some (k', h') ∧ h'.Ok ∧ h'.used = k'.owned + (L + R) ∧ (L.map Block.bytes).sum = n

theorem leaves_of_tri {k : Keep} {R : Multiset Block} {m : Mem Keep} {h : Heap} {n : ℕ} (hh : h.Holds k R)
    (ht : Tri h.stack (k.owned + R) m fun k' R' => ∃ L, bytesOf L = n ∧ R' = k'.owned + (L + R)) : LeavesBehind m h R n := by
  obtain ⟨k', h', e, ok, -, L, h1, h2⟩ := ht h hh.1 rfl hh.2
  exact ⟨k', h', L, e, ok, h2, h1⟩

/-! ## Operations without a check -/

theorem plain_turn {S : ℕ} {R : Multiset Block} (c : StoreCfg) (sv : Bool) (j : Job) (hp : j.Plain) (k : Keep) (hj : j.Fits c sv S) (hs : ¬ Low c k.store.length) :
    Tri S R (turnMem c sv j k) fun k' R' => k' = k ∧ R' = R := by
  have hu : maybeUpdateMem c sv k = pure k := by
    have hl' : ¬ k.store.length < c.batch * c.nbits / 2 := hs
    simp [maybeUpdateMem, hl']
  unfold turnMem
  rw [hu]
  refine Tri.bind (Tri.pure (Q := fun k' R' => k' = k ∧ R' = R) ⟨rfl, rfl⟩) ?_
  rintro _ _ ⟨rfl, rfl⟩
  have plain : ∀ (k : Keep) (R : Multiset Block) (m : Mem Unit), (∀ R, Tri S R m fun _ R' => R' = R) →
      Tri S R (do m; pure k) fun k' R' => k' = k ∧ R' = R := by
    intro k R m hm
    refine Tri.bind (hm _) ?_
    rintro _ _ rfl
    exact Tri.pure ⟨rfl, rfl⟩
  cases j with
  | none => exact Tri.pure ⟨rfl, rfl⟩
  | bitSum n => cases sv with
    | true => exact plain _ _ _ fun R => clean_bitSum1 n S R
    | false => exact plain _ _ _ fun R => clean_bitSum0 n S R
  | intSum n => cases sv with
    | true => exact plain _ _ _ fun R => clean_intSum1 _ n S R
    | false => exact plain _ _ _ fun R => clean_intSum0 _ n S R
  | xorOp n => cases sv with
    | true => exact plain _ _ _ fun R => clean_xorOp1 n S R
    | false => exact plain _ _ _ fun R => clean_xorOp0 n S R
  | maxOp total B n => cases sv with
    | true => exact plain _ _ _ fun R => tri_maxOp1 (by simpa [Job.Fits] using hj)
    | false => exact plain _ _ _ fun R => tri_maxOp0 (by simpa [Job.Fits] using hj)
  | freq total n single refused => exact hp.elim

/-- Queries without a check leave memory as it was, however many there are, when the store needs no refill. -/
theorem C79_plain_partial (c : StoreCfg) (sv : Bool) (js : List Job) (k : Keep) (h : Heap) (hok : h.Ok) (hp : ∀ j ∈ js, j.Plain)
    (hf : ∀ j ∈ js, j.Fits c sv h.stack) (hs : c.batch * c.nbits / 2 ≤ k.store.length) :
    ∃ h', turnsMem c sv js k h = some (k, h') ∧ h'.Ok ∧ h'.live.Perm h.live := by
  have key : ∀ js : List Job, (∀ j ∈ js, j.Plain) → (∀ j ∈ js, j.Fits c sv h.stack) →
      Tri h.stack h.used (turnsMem c sv js k) fun k' R' => k' = k ∧ R' = h.used := by
    intro js
    induction js with
    | nil => exact fun _ _ => Tri.pure ⟨rfl, rfl⟩
    | cons j js ih =>
      intro hp hf
      refine Tri.bind (plain_turn c sv j (hp j (by simp)) k (hf j (by simp)) (Nat.not_lt.2 hs)) ?_
      rintro _ _ ⟨rfl, rfl⟩
      exact ih (fun j hj => hp j (by simp [hj])) fun j hj => hf j (by simp [hj])
  obtain ⟨_, h', e, ok, -, rfl, h2⟩ := key js hp hf h hok rfl rfl
  exact ⟨h', e, ok, Multiset.coe_eq_coe.1 h2⟩

/-- A store of 8 daBits with batches of 4 of 2 bits: all hypotheses hold, and the run ends. -/
example : (turnsMem ⟨4, 2, true⟩ false [.bitSum 3, .none, .intSum 5, .maxOp 2 7 2, .xorOp 1] ⟨none, [], List.replicate 4 []⟩ ⟨9, [⟨3, .arr, 5⟩], 128⟩).map
    (fun r => r.2.live) = some [⟨3, .arr, 5⟩] := by decide +kernel

/-- At server 0 a session of such queries that begins with too few daBits leaves one array behind, of eight bytes for each daBit made. -/
theorem C79_plain_server0_partial (b n : ℕ) (j : Job) (js : List Job) (k : Keep) (R : Multiset Block) (h : Heap) (hh : h.Holds k R)
    (hp : ∀ i ∈ j :: js, i.Plain) (hf : ∀ i ∈ j :: js, i.Fits ⟨b, n, true⟩ false h.stack) (hs : k.store.length < b * n / 2) :
    LeavesBehind (turnsMem ⟨b, n, true⟩ false (j :: js) k) h R (16 * (n * b)) := by
  refine leaves_of_tri hh ((tri_turns _ false (j :: js) k hf R).conseq ?_)
  rintro k' R' ⟨L, h1, h2⟩
  refine ⟨L, h1.trans ?_, h2⟩
  have hlow : Low ⟨b, n, true⟩ k.store.length := hs
  have hj : j.loss ⟨b, n, true⟩ false (updateLevel ⟨b, n, true⟩ k.store.length) = 0 ∧
      j.level ⟨b, n, true⟩ (updateLevel ⟨b, n, true⟩ k.store.length) = updateLevel ⟨b, n, true⟩ k.store.length := by
    have := hp j (by simp)
    cases j <;> simp_all [Job.loss, Job.level, Job.Plain]
  rw [sessionLoss, hj.1, hj.2, sessionLoss_plain _ _ js (fun i hi => hp i (by simp [hi])) _ (not_low_update _ _)]
  have hn : 1 ≤ n := by
    rcases Nat.eq_zero_or_pos n with rfl | hn
    · simp at hs
    · exact hn
  have hb : b ≤ 2 * n * b := by
    calc b = 1 * b := (Nat.one_mul b).symm
      _ ≤ 2 * n * b := Nat.mul_le_mul_right b (by omega)
  simp only [updateLoss, hlow, if_true, refillLoss, Bool.not_false, Bool.and_true, Nat.max_eq_left hb]
  ring

example : ∃ h : Heap, h.Holds ⟨none, [], []⟩ {⟨0, .arr, 5⟩} ∧ (∀ i ∈ [Job.maxOp 1 3 1, Job.bitSum 2], i.Plain ∧ i.Fits ⟨4, 2, true⟩ false h.stack) :=
  ⟨⟨1, [⟨0, .arr, 5⟩], 64⟩, ⟨⟨by simp, by simp⟩, by simp [Heap.used, Keep.owned, owns]⟩, by simp [Job.Plain, Job.Fits]⟩

/-- The server as it is started (server.cpp:31, 1488): at its first turn server 0 leaves behind 32 MiB for every bit of a value. -/
theorem C79_false_refill (numBits : ℕ) (hn : 1 ≤ numBits) (h : Heap) (R : Multiset Block) (hh : h.Holds ⟨none, [], []⟩ R) :
    LeavesBehind (turnsMem ⟨cacheSize, numBits, true⟩ false [.none] ⟨none, [], []⟩) h R (numBits * 33554432) := by
  have h1 : (16 * (numBits * cacheSize)) = numBits * 33554432 := by
    have : cacheSize = 2097152 := rfl
    rw [this]
    ring
  rw [← h1]
  refine C79_plain_server0_partial _ _ _ _ _ _ _ hh (by simp [Job.Plain]) (by simp [Job.Fits]) ?_
  show 0 < cacheSize * numBits / 2
  have : cacheSize = 2097152 := rfl
  rw [this]
  omega

example : ∃ h : Heap, h.Holds ⟨none, [], []⟩ 0 := ⟨⟨0, [], 8388608⟩, ⟨by simp, by simp⟩, by simp [Heap.used, Keep.owned, owns]⟩

/-! ## FREQ -/

/-- The submissions of the FREQ queries of a session. -/
def freqTotal : List Job → ℕ
  | [] => 0
  | .freq total _ _ _ :: js => total + freqTotal js
  | _ :: js => freqTotal js

theorem shadowed_sum (c : StoreCfg) (js : List Job) : (js.map (Job.shadowed c)).sum = freqTotal js * 2 ^ c.nbits := by
  induction js with
  | nil => simp [freqTotal]
  | cons j js ih =>
    rw [List.map_cons, List.sum_cons, ih]
    cases j <;> simp only [Job.shadowed, freqTotal] <;> ring

/-- Server 1, sessions of any queries but VAR, STDDEV and LINREG: it leaves behind exactly one byte for every possible value of every submission to a FREQ query. -/
theorem C79_server1_partial (c : StoreCfg) (js : List Job) (k : Keep) (R : Multiset Block) (h : Heap) (hh : h.Holds k R)
    (hf : ∀ j ∈ js, j.Fits c true h.stack) : LeavesBehind (turnsMem c true js k) h R (freqTotal js * 2 ^ c.nbits) := by
  refine leaves_of_tri hh ((tri_turns c true js k hf R).conseq ?_)
  rintro k' R' ⟨L, h1, h2⟩
  exact ⟨L, by rw [h1, sessionLoss_one, shadowed_sum], h2⟩

example : ∃ h : Heap, h.Holds ⟨none, [], []⟩ {⟨0, .arr, 5⟩} ∧ (∀ i ∈ [Job.freq 3 2 true false, Job.bitSum 2], i.Fits ⟨4, 2, true⟩ true h.stack) :=
  ⟨⟨1, [⟨0, .arr, 5⟩], 64⟩, ⟨⟨by simp, by simp⟩, by simp [Heap.used, Keep.owned, owns]⟩, by simp [Job.Fits]⟩

/-- One FREQ query at server 0 with daBits in store: the shadowed array, and the two arrays of sums when the answer is refused. -/
theorem C79_freq0_partial (c : StoreCfg) (total n : ℕ) (single refused : Bool) (k : Keep) (R : Multiset Block) (h : Heap) (hh : h.Holds k R)
    (hS : 8 * 2 ^ c.nbits ≤ h.stack) (hn : n ≤ total) (hs : n * 2 ^ c.nbits ≤ k.store.length) :
    LeavesBehind (freq0Mem c (2 ^ c.nbits) total n single refused k) h R ((total + if refused then 16 else 0) * 2 ^ c.nbits) := by
  refine leaves_of_tri hh ((tri_freq0 c single refused k hS hn).conseq ?_)
  rintro k' R' ⟨-, L, h1, h2⟩
  refine ⟨L, ?_, h2⟩
  rw [h1, checkLoss, if_neg (by omega)]
  cases refused
  · simp
  · simp
    ring

example : ∃ (h : Heap) (k : Keep), h.Holds k 0 ∧ 8 * 2 ^ 1 ≤ h.stack ∧ 1 * 2 ^ 1 ≤ k.store.length :=
  ⟨⟨2, [⟨0, .obj, 16⟩, ⟨1, .obj, 16⟩], 64⟩, ⟨none, [], [[⟨0, .obj, 16⟩], [⟨1, .obj, 16⟩]]⟩, ⟨⟨by simp, by simp⟩, by
    simp [Heap.used, Keep.owned, owns]; rfl⟩, by simp, by simp⟩

/-- FREQ queries use up memory without bound, at both servers. -/
theorem C79_false_freq (c : StoreCfg) (sv : Bool) (K : ℕ) : ∃ js : List Job, (∀ j ∈ js, j = .freq 1 1 false false) ∧
    ∀ (k : Keep) (R : Multiset Block) (h : Heap), h.Holds k R → 8 * 2 ^ c.nbits ≤ h.stack → ∃ n, K < n ∧ LeavesBehind (turnsMem c sv js k) h R n := by
  refine ⟨List.replicate (K + 1) (.freq 1 1 false false), fun j hj => (List.mem_replicate.1 hj).2, fun k R h hh hS => ?_⟩
  refine ⟨sessionLoss c sv (List.replicate (K + 1) (.freq 1 1 false false)) k.store.length, ?_, ?_⟩
  · refine Nat.lt_of_lt_of_le ?_ (sessionLoss_ge c sv _ _)
    rw [shadowed_sum]
    have : ∀ n, freqTotal (List.replicate n (.freq 1 1 false false)) = n := by
      intro n
      induction n with
      | zero => rfl
      | succ n ih => rw [List.replicate_succ, freqTotal, ih]; omega
    rw [this]
    exact Nat.lt_of_lt_of_le (Nat.lt_succ_self K) (Nat.le_mul_of_pos_right _ (Nat.two_pow_pos _))
  · refine leaves_of_tri hh ((tri_turns c sv _ k ?_ R).conseq ?_)
    · intro j hj
      rw [(List.mem_replicate.1 hj).2]
      exact ⟨hS, le_rfl⟩
    · rintro k' R' ⟨L, h1, h2⟩
      exact ⟨L, h1, h2⟩

/-! ## VAR and STDDEV -/

/-- VAR and STDDEV at server 1: the result of the conversion is left behind, 24 bytes for every key that counts. -/
theorem C79_var1_partial (shape : ℕ → List (Way × ℕ)) (nbits : ℕ) (subs : List (Bytes × Bool)) (ord : Map (List Block) → Map (List Block)) (k : Keep)
    (R : Multiset Block) (h : Heap) (hh : h.Holds k R) (hord : ∀ m, (ord m).Perm m) (hne : usable subs ≠ []) :
    LeavesBehind (var1Mem shape nbits subs ord k) h R (24 * (usable subs).length) :=
  leaves_of_tri hh (tri_var1 shape nbits k hord hne)

example : usable [([1#8], true), ([2#8], false), ([1#8], true), ([3#8], true)] = [[1#8], [3#8]] := by decide +kernel

/-- VAR and STDDEV at server 0, for distinct announced keys: the same, and the packets (112 bytes each) of the keys that were not announced. -/
theorem C79_var0_partial (shape : ℕ → List (Way × ℕ)) (nbits : ℕ) (subs : List (Bytes × Bool)) (ks : List Bytes) (k : Keep)
    (R : Multiset Block) (h : Heap) (hh : h.Holds k R) (hks : ks.Nodup) (hne : ks ≠ []) :
    LeavesBehind (var0Mem shape nbits subs ks k) h R (24 * ks.length + ((usable subs).filter fun k => k ∉ ks).length * 112) :=
  leaves_of_tri hh (tri_var0 shape nbits k hks hne)

example : ((usable [([1#8], true), ([2#8], true)]).filter fun k => k ∉ [[2#8], [5#8]]) = [[1#8]] ∧ [[2#8], [5#8]].Nodup := by decide +kernel

/-- Every VAR or STDDEV query with a usable submission leaves something behind. -/
theorem C79_false_var (shape : ℕ → List (Way × ℕ)) (nbits : ℕ) (subs : List (Bytes × Bool)) (ord : Map (List Block) → Map (List Block)) (k : Keep)
    (R : Multiset Block) (h : Heap) (hh : h.Holds k R) (hord : ∀ m, (ord m).Perm m) (hne : usable subs ≠ []) :
    ∃ k' h', var1Mem shape nbits subs ord k h = some (k', h') ∧ h'.used ≠ k'.owned + R := by
  obtain ⟨k', h', L, e, -, h2, h3⟩ := C79_var1_partial shape nbits subs ord k R h hh hord hne
  refine ⟨k', h', e, fun hc => ?_⟩
  rw [h2] at hc
  have hL : L = 0 := by
    have : L + R = 0 + R := by rw [zero_add]; exact add_left_cancel hc
    exact add_right_cancel this
  subst hL
  have : (usable subs).length ≠ 0 := by simpa using hne
  rw [Multiset.map_zero, Multiset.sum_zero] at h3
  omega

/-! ## LINREG -/

/-- As C++ has it, every LINREG query with a row ends in undefined behaviour, at both servers: the arrays come from `new[]` and go to `delete`. -/
theorem C79_false_linreg (shape : ℕ → List (Way × ℕ)) (nbits degree N : ℕ) (subs : List (Bytes × Bool)) (ord : Map LinEntry → Map LinEntry) (ks : List Bytes)
    (refused : Bool) (k : Keep) (h : Heap) (hok : h.Ok) (hS : 8 * linCols degree ≤ h.stack) (hord : ∀ m, (ord m).Perm m) :
    (usable subs ≠ [] → lin1Mem true shape nbits degree N subs ord k h = none) ∧
    (ks ≠ [] → lin0Mem true shape nbits degree N subs ks refused k h = none) :=
  ⟨fun hne => bad_lin1 shape nbits degree N k hS hord hne h hok rfl rfl, fun hne => bad_lin0 shape nbits degree N refused k hS hne h hok rfl rfl⟩

/-- With an allocator that does not tell the two apart, server 1 leaves behind the arrays of the submissions that do not count and the result of the conversion. -/
theorem C79_linreg1_partial (shape : ℕ → List (Way × ℕ)) (nbits degree N : ℕ) (subs : List (Bytes × Bool)) (ord : Map LinEntry → Map LinEntry) (k : Keep)
    (R : Multiset Block) (h : Heap) (hh : h.Holds k R) (hS : 8 * linCols degree ≤ h.stack) (hord : ∀ m, (ord m).Perm m) (hne : usable subs ≠ []) :
    LeavesBehind (lin1Mem false shape nbits degree N subs ord k) h R
      ((subs.length - (usable subs).length) * (8 * (2 * linXs degree + linQuad degree)) + (usable subs).length * (8 + 8 * linCols degree)) := by
  refine leaves_of_tri hh ((tri_lin1 shape nbits degree N k hS hord hne).conseq ?_)
  rintro k' R' ⟨L, h1, h2⟩
  exact ⟨L, by rw [h1, convertLoss, arraysBytes]; ring, h2⟩

example : linXs 3 = 2 ∧ linQuad 3 = 3 ∧ linCols 3 = 8 ∧ linMuls 3 = 5 := by decide

/-- Server 0 besides leaves behind the rows of keys that were not announced, and the sums when the answer is refused. -/
theorem C79_linreg0_partial (shape : ℕ → List (Way × ℕ)) (nbits degree N : ℕ) (subs : List (Bytes × Bool)) (ks : List Bytes) (refused : Bool) (k : Keep)
    (R : Multiset Block) (h : Heap) (hh : h.Holds k R) (hS : 8 * linCols degree ≤ h.stack) (hks : ks.Nodup) (hne : ks ≠ []) :
    LeavesBehind (lin0Mem false shape nbits degree N subs ks refused k) h R
      ((subs.length - (usable subs).length) * (8 * (2 * linXs degree + linQuad degree)) + ks.length * (8 + 8 * linCols degree) +
        ((usable subs).filter fun k => k ∉ ks).length * (8 * (2 * linXs degree + linQuad degree) + (88 + 8 * (linMuls degree + N))) +
        if refused then 8 * (degree + linQuad degree) + 8 * degree else 0) := by
  refine leaves_of_tri hh ((tri_lin0 shape nbits degree N refused k hS hks hne).conseq ?_)
  rintro k' R' ⟨L, h1, h2⟩
  refine ⟨L, ?_, h2⟩
  rw [h1, convertLoss, arraysBytes, packetBytes, accumLoss]
  ring

example : ∃ h : Heap, h.Holds ⟨none, [], []⟩ {⟨0, .arr, 5⟩} ∧ 8 * linCols 3 ≤ h.stack :=
  ⟨⟨1, [⟨0, .arr, 5⟩], 64⟩, ⟨⟨by simp, by simp⟩, by simp [Heap.used, Keep.owned, owns]⟩, by decide⟩

/-! ## The stack -/

/-- The automatic arrays of MAX and MIN are as large as the client's `max_inp` says, those of FREQ as the server's width: with a stack too small for them the
query is the end of the server. -/
theorem C79_false_stack (c : StoreCfg) (sv : Bool) (k : Keep) (h : Heap) (hok : h.Ok) (hs : c.batch * c.nbits / 2 ≤ k.store.length) :
    (∀ total B n, h.stack < 8 * (B + 1) → turnMem c sv (.maxOp total B n) k h = none) ∧
    (∀ total n single refused, h.stack < 8 * 2 ^ c.nbits → turnMem c sv (.freq total n single refused) k h = none) := by
  have hu : maybeUpdateMem c sv k = pure k := by
    have hl' : ¬ k.store.length < c.batch * c.nbits / 2 := Nat.not_lt.2 hs
    simp [maybeUpdateMem, hl']
  constructor
  · intro total B n hB
    have : Bad h.stack h.used (turnMem c sv (.maxOp total B n) k) := by
      unfold turnMem
      rw [hu]
      refine Bad.bind (Tri.pure (Q := fun k' R' => k' = k ∧ R' = h.used) ⟨rfl, rfl⟩) ?_
      rintro _ _ ⟨rfl, rfl⟩
      cases sv with
      | true =>
        refine Bad.first ?_
        unfold maxOp1Mem
        refine Bad.bind (Tri.alloc _ _) fun _ _ _ => Bad.first (Bad.onStack hB)
      | false =>
        refine Bad.first ?_
        unfold maxOp0Mem
        refine Bad.bind (Tri.alloc _ _) fun _ _ _ => Bad.first (Bad.onStack (by omega))
    exact this h hok rfl rfl
  · intro total n single refused hM
    have : Bad h.stack h.used (turnMem c sv (.freq total n single refused) k) := by
      unfold turnMem
      rw [hu]
      refine Bad.bind (Tri.pure (Q := fun k' R' => k' = k ∧ R' = h.used) ⟨rfl, rfl⟩) ?_
      rintro _ _ ⟨rfl, rfl⟩
      cases sv with
      | true => exact Bad.first (Bad.onStack hM)
      | false => exact Bad.first (Bad.onStack hM)
    exact this h hok rfl rfl

/-- With the usual 8 MiB, `max_inp = 1048575` still fits server 1 and 1048576 does not; FREQ fits up to a width of 20. -/
example : 8 * (1048575 + 1) ≤ 8388608 ∧ 8388608 < 8 * (1048576 + 1) ∧ 8 * 2 ^ 20 ≤ 8388608 ∧ 8388608 < 8 * 2 ^ 21 := by decide

/-- The model's undefined outcome is the one meant: in a heap as a program finds it, a block in use may be accessed; once it has been released, an access
to it and a second release, in whatever way, are undefined; and so are releases in a way other than that of its allocation, where ways matter. -/
theorem C79_after_release {h : Heap} (hok : h.Ok) {b : Block} (hb : b ∈ h.live) :
    touch b h = some ((), h) ∧
      (∀ w, w ≠ b.way → release w b true h = none) ∧
      ∀ s, ∃ h', release b.way b s h = some ((), h') ∧ h'.Ok ∧ b ::ₘ h'.used = h.used ∧ touch b h' = none ∧ ∀ w s', release w b s' h' = none := by
  have hf : (h.live.find? fun c => c.ptr == b.ptr) = some b := by
    cases hc : h.live.find? fun c => c.ptr == b.ptr with
    | none =>
      have := List.find?_eq_none.1 hc b hb
      simp at this
    | some c =>
      have h1 := List.find?_some hc
      have h2 := List.mem_of_find?_eq_some hc
      have : c.ptr = b.ptr := by simpa using h1
      rw [List.inj_on_of_nodup_map hok.1 h2 hb this]
  refine ⟨?_, ?_, ?_⟩
  · unfold touch
    rw [if_pos (List.any_eq_true.2 ⟨b, hb, by simp⟩)]
  · intro w hw
    unfold release
    simp only [hf]
    rw [if_neg]
    rintro (h1 | h1)
    · exact hw h1.symm
    · exact absurd h1 (by decide)
  · intro s
    have hnot : ∀ c ∈ h.live.erase b, (c.ptr == b.ptr) = false := by
      intro c hc
      have hnd : h.live.Nodup := List.Nodup.of_map _ hok.1
      have h1 := (hnd.mem_erase_iff).1 hc
      simp only [beq_eq_false_iff_ne, ne_eq]
      exact fun he => h1.1 (List.inj_on_of_nodup_map hok.1 h1.2 hb he)
    refine ⟨{ h with live := h.live.erase b }, ?_, ⟨?_, ?_⟩, ?_, ?_, ?_⟩
    · unfold release
      simp only [hf]
      rw [if_pos (Or.inl trivial)]
    · exact (List.Sublist.map _ (List.erase_sublist)).nodup hok.1
    · exact fun c hc => hok.2 c (List.mem_of_mem_erase hc)
    · exact Multiset.coe_eq_coe.2 (List.perm_cons_erase hb).symm
    · unfold touch
      rw [if_neg]
      intro hany
      obtain ⟨c, hc, he⟩ := List.any_eq_true.1 hany
      rw [hnot c hc] at he
      cases he
    · intro w s'
      unfold release
      have : ((h.live.erase b).find? fun c => c.ptr == b.ptr) = none := List.find?_eq_none.2 fun c hc => by simp [hnot c hc]
      simp only [this]

/-- Such a heap, with two blocks in use. -/
example : (⟨2, [⟨1, .arr, 8⟩, ⟨0, .obj, 16⟩], 0⟩ : Heap).Ok ∧ (⟨0, .obj, 16⟩ : Block) ∈ (⟨2, [⟨1, .arr, 8⟩, ⟨0, .obj, 16⟩], 0⟩ : Heap).live := by
  refine ⟨⟨by decide, ?_⟩, by decide⟩
  intro b hb
  simp only [List.mem_cons, List.not_mem_nil, or_false] at hb
  rcases hb with rfl | rfl <;> decide

end Verif

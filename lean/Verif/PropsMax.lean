import Verif.PropsServer
import Verif.ModelClient
import Mathlib.Data.Finset.Fold

/-!
# C37, C38, C39: AND/OR and MAX/MIN
-/

namespace Verif

/-! ## XOR over sets and lists -/

/-- Specification: the XOR of `f` over a finite set. -/
def xorOver (S : Finset Bytes) (f : Bytes → U64) : U64 := S.fold (· ^^^ ·) 0#64 f

/-- Specification: the XOR of a list. -/
def xorAll (l : List U64) : U64 := l.foldr (· ^^^ ·) 0#64

theorem xor_left_comm' (a b c : U64) : a ^^^ (b ^^^ c) = b ^^^ (a ^^^ c) := by
  rw [← BitVec.xor_assoc, BitVec.xor_comm a b, BitVec.xor_assoc]

theorem xor_fold_list (ks : List Bytes) (hn : ks.Nodup) (p : Bytes → Bool) (f : Bytes → U64) (s : U64) :
    ks.foldl (fun s k => if p k then s ^^^ f k else s) s = s ^^^ xorOver (ks.toFinset.filter fun k => p k) f := by
  induction ks generalizing s with
  | nil => simp [xorOver]
  | cons k ks ih =>
    rw [List.nodup_cons] at hn
    rw [List.foldl_cons, ih hn.2, List.toFinset_cons, Finset.filter_insert]
    by_cases hp : p k = true
    · rw [if_pos hp, if_pos hp]
      unfold xorOver
      rw [Finset.fold_insert (by simp [hn.1]), BitVec.xor_assoc]
    · rw [if_neg hp, if_neg hp]

theorem xorOver_xor (S : Finset Bytes) (f g : Bytes → U64) :
    xorOver S f ^^^ xorOver S g = xorOver S fun k => f k ^^^ g k := by
  unfold xorOver
  induction S using Finset.induction_on with
  | empty => simp
  | insert k S hk ih =>
    rw [Finset.fold_insert hk, Finset.fold_insert hk, Finset.fold_insert hk, ← ih]
    simp only [BitVec.xor_assoc]
    rw [xor_left_comm' (S.fold _ _ _)]

theorem xorOver_congr {S : Finset Bytes} {f g : Bytes → U64} (h : ∀ k ∈ S, f k = g k) : xorOver S f = xorOver S g :=
  Finset.fold_congr h

theorem xorOver_list (ks : List Bytes) (hn : ks.Nodup) (f : Bytes → U64) : xorOver ks.toFinset f = xorAll (ks.map f) := by
  induction ks with
  | nil => simp [xorOver, xorAll]
  | cons k ks ih =>
    rw [List.nodup_cons] at hn
    have := ih hn.2
    unfold xorOver at this ⊢
    rw [List.toFinset_cons, Finset.fold_insert (by simp [hn.1]), this]
    rfl

theorem xorAll_cons (x : U64) (l : List U64) : xorAll (x :: l) = x ^^^ xorAll l := rfl

theorem xorAll_append (l l' : List U64) : xorAll (l ++ l') = xorAll l ^^^ xorAll l' := by
  induction l with
  | nil => simp [xorAll]
  | cons x l ih => rw [List.cons_append, xorAll_cons, xorAll_cons, ih, BitVec.xor_assoc]

theorem xor_zero_iff (a b : U64) : a ^^^ b = 0#64 ↔ a = b := by
  constructor
  · intro h
    have : (a ^^^ b) ^^^ b = 0#64 ^^^ b := by rw [h]
    rwa [BitVec.xor_assoc, BitVec.xor_self, BitVec.xor_zero, BitVec.zero_xor] at this
  · rintro rfl; exact BitVec.xor_self

/-- Terms equal to zero do not matter. -/
theorem xorAll_filter {γ : Type} (l : List γ) (p : γ → Bool) (f : γ → U64) :
    xorAll (l.map fun c => if p c then f c else 0#64) = xorAll ((l.filter p).map f) := by
  induction l with
  | nil => rfl
  | cons c l ih =>
    rw [List.map_cons, xorAll_cons, ih, List.filter_cons]
    by_cases h : p c = true
    · rw [if_pos h, if_pos h, List.map_cons, xorAll_cons]
    · rw [if_neg h, if_neg h, BitVec.zero_xor]

/-! ## xor_op for all submissions -/

theorem xorFold_matched (m m' : Map U64) (ks : List Bytes) (hn : ks.Nodup) :
    xorFold m ks (matched m' ks) =
      xorOver (ks.toFinset.filter fun k => (List.lookup k m').isSome) fun k => (List.lookup k m).getD 0#64 := by
  have e : xorFold m ks (matched m' ks) = ks.foldl (fun s k => if (List.lookup k m').isSome then
      s ^^^ (List.lookup k m).getD 0#64 else s) 0#64 := by
    unfold xorFold matched
    rw [List.zip_map_right, List.foldl_map]
    have : ∀ (l : List Bytes) (s : U64), (l.zip l).foldl (fun s e => if (List.lookup (Prod.map id
        (fun k => (List.lookup k m').isSome) e).1 m).isSome || true then
        (if (Prod.map id (fun k => (List.lookup k m').isSome) e).2 then
          s ^^^ (List.lookup (Prod.map id (fun k => (List.lookup k m').isSome) e).1 m).getD 0#64 else s) else s) s =
        l.foldl (fun s k => if (List.lookup k m').isSome then s ^^^ (List.lookup k m).getD 0#64 else s) s := by
      intro l
      induction l with
      | nil => intro s; rfl
      | cons k l ih => intro s; rw [List.zip_cons_cons, List.foldl_cons, ih, List.foldl_cons]; simp
    simpa using this ks 0#64
  rw [e, xor_fold_list ks hn]
  simp

/-- The aggregate of `xor_op`: XOR over the keys held by both servers of the two shares. -/
def xorAgg (subs0 subs1 : List (Bytes × U64)) : U64 :=
  xorOver (bothKeys (fun _ => true) subs0 subs1) (intTerm (fun _ => true) subs0 subs1)

theorem xorIntake_stream (subs : List (Bytes × U64)) (hk : Keyed subs) (rest : Bytes) :
    xorIntake subs.length (encIntShares subs ++ rest) = some (admit (fun _ => true) subs []) := by
  unfold xorIntake
  rw [intRecords_stream subs hk]; rfl

theorem xorOp_pair (isAnd : Bool) (subs0 subs1 : List (Bytes × U64)) (rest0 rest1 : Bytes) (hk0 : Keyed subs0)
    (hk1 : Keyed subs1) (hlen : subs1.length < 2 ^ 32) (ord : Map U64 → Map U64) (ho : IsOrder ord) :
    Pair (xorOpOp0 isAnd subs0.length (encIntShares subs0 ++ rest0)) (xorOpOp1 subs1.length (encIntShares subs1 ++ rest1) ord)
      (verdict (bothKeys (fun _ => true) subs0 subs1).card subs0.length
        (if isAnd then decide (xorAgg subs0 subs1 = 0#64) else decide (xorAgg subs0 subs1 ≠ 0#64))) .noAns := by
  unfold xorOpOp0 xorOpOp1
  rw [xorIntake_stream subs0 hk0, xorIntake_stream subs1 hk1]
  show Pair (xorOp0 _ _ _) (xorOp1 _ _) _ _
  have hp := ho (admit (fun _ => true) subs1 [])
  generalize ord (admit (fun _ => true) subs1 []) = o at hp
  unfold xorOp0 xorOp1
  have hol := order_length hp
  refine (listen_pair o.keys (order_keyed hp hk1) (by simp; omega)).bind ?_
  have hlen' : o.length = (matched (admit (fun _ => true) subs0 []) o.keys).length := by simp [matched_length]
  rw [hlen']
  refine (Pair.send01 (reads_bools _)).bind ?_
  refine (Pair.send10 (reads_u64 _)).bind ?_
  rw [finish_eq, count_order _ _ _ _ hp, xorFold_matched _ _ _ (order_nodup hp), xorFold_matched _ _ _ (order_nodup hp),
    bothKeys_eq _ _ _ _ hp, xorOver_xor]
  simp only [C34_first_admissible]
  exact Pair.ret _ _

/-- C37, for all submissions: the answer is determined by the XOR over the keys held by both servers. -/
theorem C37_xor_op (isAnd : Bool) (subs0 subs1 : List (Bytes × U64)) (rest0 rest1 : Bytes) (hk0 : Keyed subs0)
    (hk1 : Keyed subs1) (hlen : subs1.length < 2 ^ 32) (ord : Map U64 → Map U64) (ho : IsOrder ord) :
    Always (xorOpOp0 isAnd subs0.length (encIntShares subs0 ++ rest0))
      (xorOpOp1 subs1.length (encIntShares subs1 ++ rest1) ord)
      (verdict (bothKeys (fun _ => true) subs0 subs1).card subs0.length
        (if isAnd then decide (xorAgg subs0 subs1 = 0#64) else decide (xorAgg subs0 subs1 ≠ 0#64))) .noAns :=
  (xorOp_pair isAnd subs0 subs1 rest0 rest1 hk0 hk1 hlen ord ho).always

/-! ## Honest clients -/

/-- With distinct keys the submission used for a key is the only one. -/
theorem firstOf_of_mem {α : Type} {subs : List (Bytes × α)} (hn : (subs.map (·.1)).Nodup) {e : Bytes × α} (he : e ∈ subs) :
    firstOf (fun _ => true) subs e.1 = some e.2 := by
  induction subs with
  | nil => simp at he
  | cons s subs ih =>
    rw [List.map_cons, List.nodup_cons] at hn
    unfold firstOf
    rw [List.find?_cons]
    by_cases hk : s.1 = e.1
    · have : s = e := by
        rcases List.mem_cons.1 he with h | h
        · exact h.symm
        · exact absurd (List.mem_map.2 ⟨e, h, hk.symm⟩) hn.1
      subst this; simp
    · have hne : (s.1 == e.1) = false := by simpa using hk
      simp only [hne, Bool.false_and]
      rcases List.mem_cons.1 he with h | h
      · exact absurd (by rw [h]) hk
      · exact ih hn.2 h

/-- Honest clients with distinct keys: all keys are matched. -/
theorem bothKeys_honest {γ α : Type} (cs : List γ) (pk : γ → Bytes) (s0 s1 : γ → α) (hn : (cs.map pk).Nodup)
    (subs0 subs1 : List (Bytes × α)) (h0 : subs0.Perm (cs.map fun c => (pk c, s0 c)))
    (h1 : subs1.Perm (cs.map fun c => (pk c, s1 c))) :
    (∀ c ∈ cs, firstOf (fun _ => true) subs0 (pk c) = some (s0 c) ∧ firstOf (fun _ => true) subs1 (pk c) = some (s1 c)) ∧
    bothKeys (fun _ => true) subs0 subs1 = (cs.map pk).toFinset := by
  have hn0 : (subs0.map (·.1)).Nodup := by
    rw [(h0.map _).nodup_iff, List.map_map]; exact hn
  have hn1 : (subs1.map (·.1)).Nodup := by
    rw [(h1.map _).nodup_iff, List.map_map]; exact hn
  have hf : ∀ c ∈ cs, firstOf (fun _ => true) subs0 (pk c) = some (s0 c) ∧
      firstOf (fun _ => true) subs1 (pk c) = some (s1 c) := by
    intro c hc
    exact ⟨firstOf_of_mem hn0 (e := (pk c, s0 c)) (h0.mem_iff.2 (List.mem_map.2 ⟨c, hc, rfl⟩)),
      firstOf_of_mem hn1 (e := (pk c, s1 c)) (h1.mem_iff.2 (List.mem_map.2 ⟨c, hc, rfl⟩))⟩
  refine ⟨hf, ?_⟩
  ext k
  simp only [bothKeys, Finset.mem_filter, List.mem_toFinset]
  have hk : k ∈ subs0.map (·.1) ↔ k ∈ cs.map pk := by
    rw [(h0.map _).mem_iff, List.map_map]; rfl
  rw [hk]
  constructor
  · exact fun h => h.1
  · intro h
    refine ⟨h, ?_⟩
    obtain ⟨c, hc, rfl⟩ := List.mem_map.1 h
    simp [hf c hc]

/-- An honest client of AND or OR: key, value, and the draws of client.cpp:383, 390, 392. -/
structure XorClient where
  pk : Bytes
  value : Bool
  rand : U64
  share0 : U64

/-- The XOR of the random words of the clients whose value is not the neutral one. -/
def xorRands (isAnd : Bool) (cs : List XorClient) : U64 := xorAll ((cs.filter fun c => c.value != isAnd).map (·.rand))

theorem xorAgg_honest (isAnd : Bool) (cs : List XorClient) (hn : (cs.map (·.pk)).Nodup) (subs0 subs1 : List (Bytes × U64))
    (h0 : subs0.Perm (cs.map fun c => (c.pk, (clientXor isAnd c.value c.rand c.share0).1)))
    (h1 : subs1.Perm (cs.map fun c => (c.pk, (clientXor isAnd c.value c.rand c.share0).2))) : xorAgg subs0 subs1 = xorRands isAnd cs := by
  obtain ⟨hf, hb⟩ := bothKeys_honest cs (·.pk) _ _ hn subs0 subs1 h0 h1
  unfold xorAgg xorRands
  rw [hb, xorOver_list _ hn, List.map_map, ← xorAll_filter]
  congr 1
  refine List.map_congr_left fun c hc => ?_
  simp only [Function.comp, intTerm, (hf c hc).1, (hf c hc).2, Option.getD_some, clientXor]
  rw [← BitVec.xor_assoc, BitVec.xor_self, BitVec.zero_xor]
  cases isAnd <;> cases hv : c.value <;> simp [xorEncode]

/-- C37, honest clients with distinct keys, in any order at the servers: the answer is the neutral one (true for AND,
false for OR) iff the random words of the clients with the other value XOR to zero. -/
theorem C37_honest (isAnd : Bool) (cs : List XorClient) (hn : (cs.map (·.pk)).Nodup) (hl : ∀ c ∈ cs, c.pk.length = pkLength)
    (hlen : cs.length < 2 ^ 32) (subs0 subs1 : List (Bytes × U64))
    (h0 : subs0.Perm (cs.map fun c => (c.pk, (clientXor isAnd c.value c.rand c.share0).1)))
    (h1 : subs1.Perm (cs.map fun c => (c.pk, (clientXor isAnd c.value c.rand c.share0).2)))
    (rest0 rest1 : Bytes) (ord : Map U64 → Map U64) (ho : IsOrder ord) :
    Always (xorOpOp0 isAnd cs.length (encIntShares subs0 ++ rest0)) (xorOpOp1 cs.length (encIntShares subs1 ++ rest1) ord)
      (.ans (if xorRands isAnd cs = 0#64 then isAnd else !isAnd)) .noAns := by
  have e0 : subs0.length = cs.length := by rw [h0.length_eq, List.length_map]
  have e1 : subs1.length = cs.length := by rw [h1.length_eq, List.length_map]
  have hk0 : Keyed subs0 := by
    intro e he
    obtain ⟨c, hc, rfl⟩ := List.mem_map.1 (h0.mem_iff.1 he)
    exact hl c hc
  have hk1 : Keyed subs1 := by
    intro e he
    obtain ⟨c, hc, rfl⟩ := List.mem_map.1 (h1.mem_iff.1 he)
    exact hl c hc
  obtain ⟨hf, hb⟩ := bothKeys_honest cs (·.pk) _ _ hn subs0 subs1 h0 h1
  have hagg := xorAgg_honest isAnd cs hn subs0 subs1 h0 h1
  have := C37_xor_op isAnd subs0 subs1 rest0 rest1 hk0 hk1 (by omega) ord ho
  rw [e0, e1, hb, List.toFinset_card_of_nodup hn, List.length_map, hagg] at this
  have e : verdict cs.length cs.length
      (if isAnd = true then decide (xorRands isAnd cs = 0#64) else decide (xorRands isAnd cs ≠ 0#64)) =
      .ans (if xorRands isAnd cs = 0#64 then isAnd else !isAnd) := by
    unfold verdict
    rw [if_neg (by omega)]
    congr 1
    generalize xorRands isAnd cs = x
    cases isAnd <;> by_cases h : x = 0#64 <;> simp [h]
  rwa [e] at this

/-- C37, one-sidedness: if all values are neutral (all true for AND, all false for OR) the words XOR to zero, so the
answer is right. -/
theorem C37_one_sided (isAnd : Bool) (cs : List XorClient) (h : ∀ c ∈ cs, c.value = isAnd) : xorRands isAnd cs = 0#64 := by
  unfold xorRands
  have : cs.filter (fun c => c.value != isAnd) = [] := by
    rw [List.filter_eq_nil_iff]
    intro c hc
    simp [h c hc]
  rw [this]; rfl

/-- C37, the other case: of the 2^64 words that one of the clients with the other value may draw, exactly one makes the
answer wrong, whatever the other clients drew. -/
theorem C37_error_unique (isAnd : Bool) (xs ys : List XorClient) (pk : Bytes) (value : Bool) (share0 : U64)
    (h : value ≠ isAnd) : ∃! r : U64, xorRands isAnd (xs ++ ⟨pk, value, r, share0⟩ :: ys) = 0#64 := by
  have key : ∀ r, xorRands isAnd (xs ++ ⟨pk, value, r, share0⟩ :: ys) = r ^^^ (xorRands isAnd xs ^^^ xorRands isAnd ys) := by
    intro r
    unfold xorRands
    rw [List.filter_append, List.filter_cons, if_pos (by simpa using h), List.map_append, xorAll_append, List.map_cons,
      xorAll_cons, xor_left_comm']
  refine ⟨xorRands isAnd xs ^^^ xorRands isAnd ys, by simp only [key, BitVec.xor_self], ?_⟩
  intro r hr
  simp only [key] at hr
  exact (xor_zero_iff _ _).1 hr

/-- Non-vacuity: AND over true and false, and a cancellation of two false values. -/
example : xorRands true [⟨List.replicate 32 1#8, true, 9#64, 4#64⟩, ⟨List.replicate 32 2#8, false, 5#64, 7#64⟩] = 5#64 ∧
    xorRands true [⟨List.replicate 32 1#8, false, 5#64, 4#64⟩, ⟨List.replicate 32 2#8, false, 5#64, 7#64⟩] = 0#64 := by
  decide

/-! ## max_op for all submissions -/

theorem scanDown_some {a b : List U64} {B j : ℕ} (hj : j ≤ B) (hne : a.getD j 0#64 ≠ b.getD j 0#64)
    (heq : ∀ i, j < i → i ≤ B → a.getD i 0#64 = b.getD i 0#64) : scanDown a b B = some j := by
  induction B with
  | zero => obtain rfl : j = 0 := by omega
            rw [scanDown, if_pos hne]
  | succ B ih =>
    rw [scanDown]
    by_cases h : j = B + 1
    · subst h; rw [if_pos hne]
    · rw [if_neg (by rw [not_not]; exact heq _ (by omega) le_rfl)]
      exact ih (by omega) fun i h1 h2 => heq i h1 (by omega)

theorem scanDown_none {a b : List U64} {B : ℕ} (heq : ∀ i, i ≤ B → a.getD i 0#64 = b.getD i 0#64) :
    scanDown a b B = none := by
  induction B with
  | zero => rw [scanDown, if_neg (by rw [not_not]; exact heq 0 le_rfl)]
  | succ B ih =>
    rw [scanDown, if_neg (by rw [not_not]; exact heq _ le_rfl)]
    exact ih fun i hi => heq i (by omega)

/-! ## C61 -/

/-- C61. The array for the shares is large enough exactly when the number of words fits in 32 bits. -/
theorem C61_max_rows_fit (B total : ℕ) (hB : B + 1 < 2 ^ 32) : maxRowsFit B total = true ↔ total * (B + 1) < 2 ^ 32 := by
  unfold maxRowsFit
  rw [List.all_eq_true]
  generalize hw : B + 1 = w at *
  have hw0 : 0 < w := by omega
  constructor
  · intro h
    by_contra hge
    push Not at hge
    have hdiv : (2 ^ 32 - 1) / w * w ≤ 2 ^ 32 - 1 := Nat.div_mul_le_self _ _
    have hdiv2 : 2 ^ 32 - 1 < ((2 ^ 32 - 1) / w + 1) * w := by
      have := Nat.lt_div_mul_add (a := 2 ^ 32 - 1) hw0
      rw [add_mul, one_mul]; omega
    have hlt : (2 ^ 32 - 1) / w < total := by
      by_contra hle
      push Not at hle
      have := Nat.mul_le_mul_right w hle
      omega
    have := h ((2 ^ 32 - 1) / w) (List.mem_range.2 hlt)
    rw [decide_eq_true_iff, Nat.mod_eq_of_lt (a := (2 ^ 32 - 1) / w * w) (by omega), Nat.mod_eq_of_lt hB] at this
    have hm : total * w % 2 ^ 32 < 2 ^ 32 := Nat.mod_lt _ (by norm_num)
    rw [add_mul, one_mul] at hdiv2
    omega
  · intro h i hi
    rw [List.mem_range] at hi
    have h1 : (i + 1) * w ≤ total * w := Nat.mul_le_mul_right w hi
    rw [add_mul, one_mul] at h1
    rw [decide_eq_true_iff, Nat.mod_eq_of_lt (a := i * w) (by omega), Nat.mod_eq_of_lt hB, Nat.mod_eq_of_lt h]
    exact h1

/-- C61, the consequence: a batch with too many words is undefined behaviour at both servers, before the other server is
contacted. -/
theorem C61_max_overflow (isMax : Bool) (B total : ℕ) (stream : Bytes) (ord : Map (List U64) → Map (List U64))
    (h : 2 ^ 32 ≤ total * (B + 1)) : maxOpOp0 isMax B total stream = .fault ∧ maxOpOp1 B total stream ord = .fault := by
  have : maxIntake B total stream = none := by
    unfold maxIntake
    by_cases hB : B + 1 < 2 ^ 32
    · rw [if_neg]
      rintro ⟨_, h'⟩
      exact absurd ((C61_max_rows_fit B total hB).1 h') (by omega)
    · rw [if_neg (by tauto)]
  unfold maxOpOp0 maxOpOp1
  rw [this]
  exact ⟨rfl, rfl⟩

/-- An ordinary client reaches it: 16-bit values (`B = 2^16`) and 2^16 submissions. -/
example : 2 ^ 32 ≤ 2 ^ 16 * (2 ^ 16 + 1) := by norm_num

/-- All rows have `B + 1` words. -/
def RowsOk (B : ℕ) (subs : List (Bytes × List U64)) : Prop := ∀ e ∈ subs, e.2.length = B + 1

theorem maxFold_getD (B : ℕ) (m m' : Map (List U64)) (ks : List Bytes) (hn : ks.Nodup)
    (hrow : ∀ k ∈ ks, (List.lookup k m').isSome = true → ((List.lookup k m).getD []).length = B + 1) :
    (maxFold B m ks (matched m' ks)).length = B + 1 ∧ ∀ j, (maxFold B m ks (matched m' ks)).getD j 0#64 =
      xorOver (ks.toFinset.filter fun k => (List.lookup k m').isSome) fun k => ((List.lookup k m).getD []).getD j 0#64 := by
  have gen : ∀ (l : List Bytes) (s : List U64), (∀ k ∈ l, (List.lookup k m').isSome = true →
      ((List.lookup k m).getD []).length = B + 1) → s.length = B + 1 →
      ((l.zip (matched m' l)).foldl (fun s e => if e.2 then xorCols s ((List.lookup e.1 m).getD []) else s) s).length = B + 1 ∧
      ∀ j, ((l.zip (matched m' l)).foldl (fun s e => if e.2 then xorCols s ((List.lookup e.1 m).getD []) else s) s).getD j 0#64
        = l.foldl (fun s k => if (List.lookup k m').isSome then s ^^^ ((List.lookup k m).getD []).getD j 0#64 else s)
          (s.getD j 0#64) := by
    intro l
    induction l with
    | nil => intro s _ hs; exact ⟨hs, fun j => rfl⟩
    | cons k l ih =>
      intro s hr hs
      have hr' : ∀ k ∈ l, (List.lookup k m').isSome = true → ((List.lookup k m).getD []).length = B + 1 :=
        fun k hk => hr k (List.mem_cons_of_mem _ hk)
      simp only [matched, List.map_cons, List.zip_cons_cons, List.foldl_cons]
      by_cases hk : (List.lookup k m').isSome = true
      · have hlen := hr k (List.mem_cons_self ..) hk
        simp only [hk, if_true]
        have hx : (xorCols s ((List.lookup k m).getD [])).length = B + 1 := by
          rw [xorCols, List.length_zipWith, hs, hlen, min_self]
        refine ⟨(ih _ hr' hx).1, fun j => ?_⟩
        refine ((ih _ hr' hx).2 j).trans ?_
        congr 1
        unfold xorCols
        by_cases hj : j < B + 1
        · rw [List.getD_eq_getElem _ _ (by rw [List.length_zipWith]; omega), List.getElem_zipWith,
            List.getD_eq_getElem _ _ (by omega), List.getD_eq_getElem _ _ (by omega)]
        · rw [List.getD_eq_default _ _ (by rw [List.length_zipWith]; omega), List.getD_eq_default _ _ (by omega),
            List.getD_eq_default _ _ (by omega)]
          rfl
      · simp only [hk, Bool.false_eq_true, if_false]
        exact ih s hr' hs
  obtain ⟨h1, h2⟩ := gen ks (List.replicate (B + 1) 0#64) hrow (by simp)
  refine ⟨h1, fun j => ?_⟩
  unfold maxFold
  rw [h2 j, xor_fold_list ks hn]
  have : (List.replicate (B + 1) 0#64 : List U64).getD j 0#64 = 0#64 := by
    by_cases hj : j < B + 1
    · rw [List.getD_eq_getElem _ _ (by simpa using hj)]; simp
    · rw [List.getD_eq_default _ _ (by simp; omega)]
  rw [this, BitVec.zero_xor]

/-- The aggregate of column `j`: XOR over the keys held by both servers of the two words. -/
def maxCol (subs0 subs1 : List (Bytes × List U64)) (j : ℕ) : U64 :=
  xorOver (bothKeys (fun _ => true) subs0 subs1) fun k =>
    ((firstOf (fun _ => true) subs0 k).getD []).getD j 0#64 ^^^ ((firstOf (fun _ => true) subs1 k).getD []).getD j 0#64

/-- The submissions as the client sends them (client.cpp:61-68). -/
def encMaxShares (subs : List (Bytes × List U64)) : Bytes := subs.flatMap fun e => e.1 ++ encWords e.2

theorem maxRecords_stream (B : ℕ) (subs : List (Bytes × List U64)) (hk : Keyed subs) (hr : RowsOk B subs) :
    Reads ((rdMaxShare B).rep subs.length) (encMaxShares subs) subs := by
  induction subs with
  | nil => exact Reads.ret _
  | cons e subs ih =>
    rw [List.length_cons, Rd.rep]
    have e1 : Reads (rdMaxShare B) (e.1 ++ encWords e.2) e := by
      unfold rdMaxShare
      refine Reads.bind' (r := .get pkLength .ret) (f := fun pk => (rdWords (B + 1)).bind fun ws => .ret (pk, ws))
        (Reads.getRet (k := id) (hk e (List.mem_cons_self ..))) ?_ rfl
      rw [← hr e (List.mem_cons_self ..)]
      exact Reads.bindRet (f := fun ws => (e.1, ws)) (reads_words e.2)
    refine Reads.bind' e1 ?_ (by simp [encMaxShares] : encMaxShares (e :: subs) = (e.1 ++ encWords e.2) ++ encMaxShares subs)
    exact Reads.bindRet (f := fun as => e :: as) (ih (fun e he => hk e (List.mem_cons_of_mem _ he))
      fun e he => hr e (List.mem_cons_of_mem _ he))

theorem maxIntake_stream (B : ℕ) (subs : List (Bytes × List U64)) (hk : Keyed subs) (hr : RowsOk B subs)
    (hB : B + 1 < 2 ^ 32) (hsz : subs.length * (B + 1) < 2 ^ 32) (rest : Bytes) :
    maxIntake B subs.length (encMaxShares subs ++ rest) = some (admit (fun _ => true) subs []) := by
  unfold maxIntake
  rw [if_pos ⟨hB, (C61_max_rows_fit B _ hB).2 hsz⟩, maxRecords_stream B subs hk hr rest]; rfl

theorem order_row {subs : List (Bytes × List U64)} {B : ℕ} (hr : RowsOk B subs) {k : Bytes}
    (h : (firstOf (fun _ => true) subs k).isSome = true) : ((firstOf (fun _ => true) subs k).getD []).length = B + 1 := by
  unfold firstOf at h ⊢
  rcases hf : subs.find? (fun s => s.1 == k && true) with _ | e
  · rw [hf] at h; simp at h
  · rw [hf]; simpa using hr e (List.mem_of_find?_eq_some hf)

/-- What server 0 does once it has both column vectors. -/
theorem maxOp_leads (isMax : Bool) (B : ℕ) (subs0 subs1 : List (Bytes × List U64)) (rest0 rest1 : Bytes) (hk0 : Keyed subs0)
    (hk1 : Keyed subs1) (hr0 : RowsOk B subs0) (hr1 : RowsOk B subs1) (hB : B + 1 < 2 ^ 32) (hs0 : subs0.length * (B + 1) < 2 ^ 32)
    (hs1 : subs1.length * (B + 1) < 2 ^ 32) (ord : Map (List U64) → Map (List U64)) (ho : IsOrder ord) :
    ∃ a b : List U64, (∀ j, a.getD j 0#64 ^^^ b.getD j 0#64 = maxCol subs0 subs1 j) ∧
      Leads (maxOpOp0 isMax B subs0.length (encMaxShares subs0 ++ rest0))
        (maxOpOp1 B subs1.length (encMaxShares subs1 ++ rest1) ord)
        (if belowThreshold (bothKeys (fun _ => true) subs0 subs1).card subs0.length then .ret .invalid
        else match scanDown a b B with
          | some j => .ret (.ans (if isMax then j else B - j))
          | none => .fault) (.ret .noAns) := by
  unfold maxOpOp0 maxOpOp1
  rw [maxIntake_stream B subs0 hk0 hr0 hB hs0, maxIntake_stream B subs1 hk1 hr1 hB hs1]
  have hp := ho (admit (fun _ => true) subs1 [])
  show ∃ a b : List U64, _ ∧ Leads (maxOp0 _ _ _ _) (maxOp1 _ _ (ord _)) _ _
  generalize ord (admit (fun _ => true) subs1 []) = o at hp
  unfold maxOp0 maxOp1
  have hol := order_length hp
  have hB' : subs1.length ≤ subs1.length * (B + 1) := Nat.le_mul_of_pos_right _ (by omega)
  have hlen' : o.length = (matched (admit (fun _ => true) subs0 []) o.keys).length := by simp [matched_length]
  have hboth : ∀ k ∈ o.keys, (List.lookup k (admit (fun _ => true) subs1 [])).isSome = true := by
    intro k hk
    rw [lookup_isSome_iff]
    exact (hp.map _).mem_iff.1 hk
  have h0 := maxFold_getD B (admit (fun _ => true) subs0 []) (admit (fun _ => true) subs0 []) o.keys (order_nodup hp)
    (fun k _ hk => by rw [C34_first_admissible] at hk ⊢; exact order_row hr0 hk)
  have h1 := maxFold_getD B (admit (fun _ => true) subs1 []) (admit (fun _ => true) subs0 []) o.keys (order_nodup hp)
    (fun k hk _ => by have := hboth k hk; rw [C34_first_admissible] at this ⊢; exact order_row hr1 this)
  refine ⟨maxFold B (admit (fun _ => true) subs0 []) o.keys (matched (admit (fun _ => true) subs0 []) o.keys),
    maxFold B (admit (fun _ => true) subs1 []) o.keys (matched (admit (fun _ => true) subs0 []) o.keys), ?_, ?_⟩
  · intro j
    rw [h0.2, h1.2, xorOver_xor, bothKeys_eq _ _ _ _ hp]
    simp only [C34_first_admissible]
    rfl
  · refine (Leads.ofPair (listen_pair o.keys (order_keyed hp hk1) (by simp; omega)) _ _).trans ?_
    rw [hlen']
    refine (Leads.ofPair (Pair.send01 (reads_bools _)) _ _).trans ?_
    have hw := reads_words (maxFold B (admit (fun _ => true) subs1 []) o.keys
      (matched (admit (fun _ => true) subs0 []) o.keys))
    rw [h1.1] at hw
    refine (Leads.ofPair (Pair.send10 hw) _ _).trans ?_
    rw [count_order _ _ _ _ hp]
    exact Leads.refl _ _

section
variable (isMax : Bool) (B : ℕ) (subs0 subs1 : List (Bytes × List U64)) (rest0 rest1 : Bytes) (hk0 : Keyed subs0)
  (hk1 : Keyed subs1) (hr0 : RowsOk B subs0) (hr1 : RowsOk B subs1) (hB : B + 1 < 2 ^ 32) (hs0 : subs0.length * (B + 1) < 2 ^ 32)
  (hs1 : subs1.length * (B + 1) < 2 ^ 32) (ord : Map (List U64) → Map (List U64)) (ho : IsOrder ord)
include hk0 hk1 hr0 hr1 hB hs0 hs1 ho

/-- C48 for MAX and MIN: fewer than half of the submissions matched. -/
theorem C48_max_invalid (hc : 2 * (bothKeys (fun _ => true) subs0 subs1).card < subs0.length) :
    Always (maxOpOp0 isMax B subs0.length (encMaxShares subs0 ++ rest0))
      (maxOpOp1 B subs1.length (encMaxShares subs1 ++ rest1) ord) .invalid .noAns := by
  obtain ⟨a, b, _, h⟩ := maxOp_leads isMax B subs0 subs1 rest0 rest1 hk0 hk1 hr0 hr1 hB hs0 hs1 ord ho
  rw [if_pos ((C48_threshold _ _).2 hc)] at h
  exact h.pair.always

theorem maxOp_pair (hc : ¬ 2 * (bothKeys (fun _ => true) subs0 subs1).card < subs0.length) (j : ℕ) (hj : j ≤ B)
    (hne : maxCol subs0 subs1 j ≠ 0#64) (hz : ∀ i, j < i → i ≤ B → maxCol subs0 subs1 i = 0#64) :
    Pair (maxOpOp0 isMax B subs0.length (encMaxShares subs0 ++ rest0))
      (maxOpOp1 B subs1.length (encMaxShares subs1 ++ rest1) ord) (.ans (if isMax then j else B - j)) .noAns := by
  obtain ⟨a, b, hab, h⟩ := maxOp_leads isMax B subs0 subs1 rest0 rest1 hk0 hk1 hr0 hr1 hB hs0 hs1 ord ho
  rw [if_neg (fun h' => hc ((C48_threshold _ _).1 h')), scanDown_some hj (fun he => hne (by rw [← hab, (xor_zero_iff _ _).2 he]))
    (fun i h1 h2 => (xor_zero_iff _ _).1 (by rw [hab, hz i h1 h2]))] at h
  exact h.pair

/-- C38, for all submissions: the answer is the highest column whose words do not cancel over the matched keys (MIN
reports `B` minus it). -/
theorem C38_max_op (hc : ¬ 2 * (bothKeys (fun _ => true) subs0 subs1).card < subs0.length) (j : ℕ) (hj : j ≤ B)
    (hne : maxCol subs0 subs1 j ≠ 0#64) (hz : ∀ i, j < i → i ≤ B → maxCol subs0 subs1 i = 0#64) :
    Always (maxOpOp0 isMax B subs0.length (encMaxShares subs0 ++ rest0))
      (maxOpOp1 B subs1.length (encMaxShares subs1 ++ rest1) ord) (.ans (if isMax then j else B - j)) .noAns :=
  (maxOp_pair isMax B subs0 subs1 rest0 rest1 hk0 hk1 hr0 hr1 hB hs0 hs1 ord ho hc j hj hne hz).always

/-- C39, the negative part: if all columns cancel and the batch is not rejected, server 0 reads outside its arrays, in
every schedule. -/
theorem C39_all_cancel_crashes (hc : ¬ 2 * (bothKeys (fun _ => true) subs0 subs1).card < subs0.length)
    (hz : ∀ i, i ≤ B → maxCol subs0 subs1 i = 0#64) :
    Crashes0 (maxOpOp0 isMax B subs0.length (encMaxShares subs0 ++ rest0))
      (maxOpOp1 B subs1.length (encMaxShares subs1 ++ rest1) ord) := by
  obtain ⟨a, b, hab, h⟩ := maxOp_leads isMax B subs0 subs1 rest0 rest1 hk0 hk1 hr0 hr1 hB hs0 hs1 ord ho
  rw [if_neg (fun h' => hc ((C48_threshold _ _).1 h')),
    scanDown_none (fun i hi => (xor_zero_iff _ _).1 (by rw [hab, hz i hi]))] at h
  exact Crashes0.ofLeads h

/-- C39, what holds: if the batch is rejected or some column differs, the operation ends at both servers. -/
theorem C39_terminates_partial (h : 2 * (bothKeys (fun _ => true) subs0 subs1).card < subs0.length ∨
    ∃ j, j ≤ B ∧ maxCol subs0 subs1 j ≠ 0#64) :
    ∃ r, Always (maxOpOp0 isMax B subs0.length (encMaxShares subs0 ++ rest0))
      (maxOpOp1 B subs1.length (encMaxShares subs1 ++ rest1) ord) r .noAns := by
  by_cases hc : 2 * (bothKeys (fun _ => true) subs0 subs1).card < subs0.length
  · exact ⟨_, C48_max_invalid isMax B subs0 subs1 rest0 rest1 hk0 hk1 hr0 hr1 hB hs0 hs1 ord ho hc⟩
  · have hex := h.resolve_left hc
    obtain ⟨j0, hj0, hne0⟩ := hex
    have hP : ∃ d, d ≤ B ∧ maxCol subs0 subs1 (B - d) ≠ 0#64 := ⟨B - j0, by omega, by rwa [show B - (B - j0) = j0 by omega]⟩
    classical
    refine ⟨_, C38_max_op isMax B subs0 subs1 rest0 rest1 hk0 hk1 hr0 hr1 hB hs0 hs1 ord ho hc (B - Nat.find hP) (by omega)
      (Nat.find_spec hP).2 fun i h1 h2 => ?_⟩
    have := Nat.find_min hP (m := B - i) (by have := (Nat.find_spec hP).1; omega)
    by_contra hne
    exact this ⟨by omega, by rwa [show B - (B - i) = i by omega]⟩

end

/-- C39, a witness: a batch of zero submissions crashes server 0, for every `B`. -/
theorem C39_empty_batch_crashes (isMax : Bool) (B : ℕ) (hB : B + 1 < 2 ^ 32) (ord : Map (List U64) → Map (List U64)) (ho : IsOrder ord)
    (rest0 rest1 : Bytes) : Crashes0 (maxOpOp0 isMax B 0 rest0) (maxOpOp1 B 0 rest1 ord) :=
  C39_all_cancel_crashes isMax B [] [] rest0 rest1 (by simp [Keyed]) (by simp [Keyed]) (by simp [RowsOk]) (by simp [RowsOk])
    hB (by simp) (by simp) ord ho (by simp) fun i _ => by simp [maxCol, bothKeys, xorOver]

/-! ## Honest clients of MAX and MIN -/

/-- An honest client of MAX or MIN: key, value and the draws of client.cpp:566-567. -/
structure MaxClient where
  pk : Bytes
  value : ℕ
  rand : ℕ → U64
  share0 : ℕ → U64

/-- The XOR of the random words at column `j` of the clients that reach it. -/
def colRands (isMax : Bool) (B : ℕ) (cs : List MaxClient) (j : ℕ) : U64 :=
  xorAll ((cs.filter fun c => decide (j ≤ maxPos isMax B c.value)).map fun c => c.rand j)

theorem range_getD (B j : ℕ) (f : ℕ → U64) : ((List.range (B + 1)).map f).getD j 0#64 = if j ≤ B then f j else 0#64 := by
  by_cases h : j ≤ B
  · rw [if_pos h, List.getD_eq_getElem _ _ (by simp; omega)]; simp
  · rw [if_neg h, List.getD_eq_default _ _ (by simp; omega)]

/-- Submissions made by honest clients with distinct keys, in any order at the two servers. -/
structure HonestMax (isMax : Bool) (B : ℕ) (cs : List MaxClient) (subs0 subs1 : List (Bytes × List U64)) : Prop where
  distinct : (cs.map (·.pk)).Nodup
  keys : ∀ c ∈ cs, c.pk.length = pkLength
  range : ∀ c ∈ cs, c.value ≤ B
  subs0 : subs0.Perm (cs.map fun c => (c.pk, (clientMax isMax B c.value c.rand c.share0).1))
  subs1 : subs1.Perm (cs.map fun c => (c.pk, (clientMax isMax B c.value c.rand c.share0).2))

namespace HonestMax

variable {isMax : Bool} {B : ℕ} {cs : List MaxClient} {subs0 subs1 : List (Bytes × List U64)}

theorem keyed0 (h : HonestMax isMax B cs subs0 subs1) : Keyed subs0 := by
  intro e he
  obtain ⟨c, hc, rfl⟩ := List.mem_map.1 (h.subs0.mem_iff.1 he)
  exact h.keys c hc

theorem keyed1 (h : HonestMax isMax B cs subs0 subs1) : Keyed subs1 := by
  intro e he
  obtain ⟨c, hc, rfl⟩ := List.mem_map.1 (h.subs1.mem_iff.1 he)
  exact h.keys c hc

theorem rows0 (h : HonestMax isMax B cs subs0 subs1) : RowsOk B subs0 := by
  intro e he
  obtain ⟨c, hc, rfl⟩ := List.mem_map.1 (h.subs0.mem_iff.1 he)
  simp [clientMax]

theorem rows1 (h : HonestMax isMax B cs subs0 subs1) : RowsOk B subs1 := by
  intro e he
  obtain ⟨c, hc, rfl⟩ := List.mem_map.1 (h.subs1.mem_iff.1 he)
  simp [clientMax, maxEncode]

theorem length0 (h : HonestMax isMax B cs subs0 subs1) : subs0.length = cs.length := by
  rw [h.subs0.length_eq, List.length_map]

theorem length1 (h : HonestMax isMax B cs subs0 subs1) : subs1.length = cs.length := by
  rw [h.subs1.length_eq, List.length_map]

theorem all (h : HonestMax isMax B cs subs0 subs1) : ¬ 2 * (bothKeys (fun _ => true) subs0 subs1).card < subs0.length := by
  rw [(bothKeys_honest cs (·.pk) _ _ h.distinct subs0 subs1 h.subs0 h.subs1).2, List.toFinset_card_of_nodup h.distinct,
    List.length_map, h.length0]
  omega

theorem col (h : HonestMax isMax B cs subs0 subs1) (j : ℕ) (hj : j ≤ B) :
    maxCol subs0 subs1 j = colRands isMax B cs j := by
  obtain ⟨hf, hb⟩ := bothKeys_honest cs (·.pk) _ _ h.distinct subs0 subs1 h.subs0 h.subs1
  unfold maxCol colRands
  rw [hb, xorOver_list _ h.distinct, List.map_map, ← xorAll_filter]
  congr 1
  refine List.map_congr_left fun c hc => ?_
  simp only [Function.comp, (hf c hc).1, (hf c hc).2, Option.getD_some, clientMax]
  have e : (List.zipWith (· ^^^ ·) ((List.range (B + 1)).map c.share0) (maxEncode isMax B c.value c.rand)).getD j 0#64 =
      c.share0 j ^^^ (if maxPos isMax B c.value < j then 0#64 else c.rand j) := by
    rw [List.getD_eq_getElem _ _ (by simp [maxEncode]; omega), List.getElem_zipWith]
    simp [maxEncode]
  rw [e, range_getD, if_pos hj, ← BitVec.xor_assoc, BitVec.xor_self, BitVec.zero_xor]
  by_cases hlt : maxPos isMax B c.value < j
  · rw [if_pos hlt, if_neg (by simp; omega)]
  · rw [if_neg hlt, if_pos (by simp; omega)]

/-- No column above all clients' positions differs. -/
theorem above (h : HonestMax isMax B cs subs0 subs1) (M : ℕ) (hM : ∀ c ∈ cs, maxPos isMax B c.value ≤ M) (j : ℕ)
    (hj : j ≤ B) (hMj : M < j) : maxCol subs0 subs1 j = 0#64 := by
  rw [h.col j hj, colRands]
  have : cs.filter (fun c => decide (j ≤ maxPos isMax B c.value)) = [] := by
    rw [List.filter_eq_nil_iff]
    intro c hc
    have := hM c hc
    simp; omega
  rw [this]; rfl

end HonestMax

section
variable (B : ℕ) (cs : List MaxClient) (subs0 subs1 : List (Bytes × List U64)) (rest0 rest1 : Bytes)
  (hB : B + 1 < 2 ^ 32) (hs : cs.length * (B + 1) < 2 ^ 32) (ord : Map (List U64) → Map (List U64)) (ho : IsOrder ord)
include hB hs ho

/-- C38, MAX is exact unless the words cancel: honest clients with distinct keys, `M` the largest value; if the random
words that the clients with value `M` drew for column `M` do not XOR to zero, the answer is `M`. -/
theorem C38_max_exact (h : HonestMax true B cs subs0 subs1) (M : ℕ) (hM : ∀ c ∈ cs, c.value ≤ M) (hMB : M ≤ B)
    (hne : xorAll ((cs.filter fun c => c.value = M).map fun c => c.rand M) ≠ 0#64) :
    Always (maxOpOp0 true B cs.length (encMaxShares subs0 ++ rest0))
      (maxOpOp1 B cs.length (encMaxShares subs1 ++ rest1) ord) (.ans M) .noAns := by
  have e : colRands true B cs M = xorAll ((cs.filter fun c => c.value = M).map fun c => c.rand M) := by
    unfold colRands
    congr 2
    refine List.filter_congr fun c hc => ?_
    have := hM c hc
    simp only [maxPos, if_true, decide_eq_decide]
    omega
  have := C38_max_op true B subs0 subs1 rest0 rest1 h.keyed0 h.keyed1 h.rows0 h.rows1 hB (by rw [h.length0]; exact hs)
    (by rw [h.length1]; exact hs) ord ho h.all M hMB (by rw [h.col M hMB, e]; exact hne)
    (fun i h1 h2 => h.above M (fun c hc => by simpa [maxPos] using hM c hc) i h2 h1)
  rw [h.length0, h.length1] at this
  simpa using this

/-- C38, MIN is exact unless the words cancel. -/
theorem C38_min_exact (h : HonestMax false B cs subs0 subs1) (m : ℕ) (hm : ∀ c ∈ cs, m ≤ c.value) (hmB : m ≤ B)
    (hne : xorAll ((cs.filter fun c => c.value = m).map fun c => c.rand (B - m)) ≠ 0#64) :
    Always (maxOpOp0 false B cs.length (encMaxShares subs0 ++ rest0))
      (maxOpOp1 B cs.length (encMaxShares subs1 ++ rest1) ord) (.ans m) .noAns := by
  have e : colRands false B cs (B - m) = xorAll ((cs.filter fun c => c.value = m).map fun c => c.rand (B - m)) := by
    unfold colRands
    congr 2
    refine List.filter_congr fun c hc => ?_
    have := hm c hc
    have := h.range c hc
    simp only [maxPos, Bool.false_eq_true, if_false, decide_eq_decide]
    omega
  have := C38_max_op false B subs0 subs1 rest0 rest1 h.keyed0 h.keyed1 h.rows0 h.rows1 hB (by rw [h.length0]; exact hs)
    (by rw [h.length1]; exact hs) ord ho h.all (B - m) (by omega) (by rw [h.col _ (by omega), e]; exact hne)
    (fun i h1 h2 => h.above (B - m) (fun c hc => by have := hm c hc; simp [maxPos]; omega) i h2 h1)
  rw [h.length0, h.length1] at this
  simpa [show B - (B - m) = m by omega] using this

/-- C38, never beyond the true value: whatever the clients drew, a reported maximum is at most the largest value, a
reported minimum at least the smallest, and an honest batch is never rejected. -/
theorem C38_never_beyond (isMax : Bool) (h : HonestMax isMax B cs subs0 subs1) (r : Ret ℕ)
    (hr : Always (maxOpOp0 isMax B cs.length (encMaxShares subs0 ++ rest0))
      (maxOpOp1 B cs.length (encMaxShares subs1 ++ rest1) ord) r .noAns) :
    ∃ j, r = .ans j ∧ ∃ c ∈ cs, if isMax then j ≤ c.value else c.value ≤ j := by
  have hs0 : subs0.length * (B + 1) < 2 ^ 32 := by rw [h.length0]; exact hs
  have hs1 : subs1.length * (B + 1) < 2 ^ 32 := by rw [h.length1]; exact hs
  by_cases hz : ∀ i, i ≤ B → maxCol subs0 subs1 i = 0#64
  · have hcr := C39_all_cancel_crashes isMax B subs0 subs1 rest0 rest1 h.keyed0 h.keyed1 h.rows0 h.rows1 hB hs0 hs1 ord ho
      h.all hz
    rw [h.length0, h.length1] at hcr
    exact absurd hr hcr.not_always
  · push Not at hz
    obtain ⟨j0, hj0, hne0⟩ := hz
    have hP : ∃ d, d ≤ B ∧ maxCol subs0 subs1 (B - d) ≠ 0#64 := ⟨B - j0, by omega, by rwa [show B - (B - j0) = j0 by omega]⟩
    classical
    have hspec := Nat.find_spec hP
    have hal := C38_max_op isMax B subs0 subs1 rest0 rest1 h.keyed0 h.keyed1 h.rows0 h.rows1 hB hs0 hs1 ord ho h.all
      (B - Nat.find hP) (by omega) hspec.2 (fun i h1 h2 => by
        have := Nat.find_min hP (m := B - i) (by have := hspec.1; omega)
        by_contra hne
        exact this ⟨by omega, by rwa [show B - (B - i) = i by omega]⟩)
    rw [h.length0, h.length1] at hal
    refine ⟨_, (hr.unique hal).1, ?_⟩
    by_contra hno
    push Not at hno
    refine hspec.2 ?_
    rw [h.col _ (by omega), colRands]
    have : cs.filter (fun c => decide (B - Nat.find hP ≤ maxPos isMax B c.value)) = [] := by
      rw [List.filter_eq_nil_iff]
      intro c hc
      have h1 := hno c hc
      have h2 := h.range c hc
      cases isMax
      · simp [maxPos] at h1 ⊢; omega
      · simp [maxPos] at h1 ⊢; omega
    rw [this]; rfl

end

/-- C38, how rare the error is: of the 2^64 words that one client with the largest value may draw for its column,
exactly one makes the words cancel, whatever the others drew. -/
theorem C38_error_unique (xs ys : List U64) : ∃! r : U64, xorAll (xs ++ r :: ys) = 0#64 := by
  refine ⟨xorAll xs ^^^ xorAll ys, ?_, ?_⟩
  · simp only [xorAll_append, xorAll_cons]
    rw [xor_left_comm', BitVec.xor_self]
  · intro r hr
    simp only [xorAll_append, xorAll_cons] at hr
    rw [xor_left_comm'] at hr
    exact (xor_zero_iff _ _).1 hr

/-- Non-vacuity: two honest clients with values 1 and 2 out of 0..3. -/
example : ∃ cs subs0 subs1, HonestMax true 3 cs subs0 subs1 ∧ (∀ c ∈ cs, c.value ≤ 2) ∧
    xorAll ((cs.filter fun c => c.value = 2).map fun c => c.rand 2) ≠ 0#64 := by
  refine ⟨[⟨List.replicate 32 1#8, 1, fun _ => 5#64, fun _ => 9#64⟩, ⟨List.replicate 32 2#8, 2, fun j => BitVec.ofNat 64 j,
    fun _ => 4#64⟩], _, _, ⟨by decide, by decide, by decide, List.Perm.refl _, List.Perm.refl _⟩, by decide, by decide⟩

end Verif

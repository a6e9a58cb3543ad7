import Verif.PropsUpload
import Verif.PropsLinHonest
import Verif.PropsVar

/-!
# C59, continued: AND, OR, MAX and MIN from the client program to the answer printed by server 0
-/

namespace Verif

/-! ## AND and OR -/

/-- The words that the submissions with the deciding value (false for AND, true for OR) carry. -/
def decidingWords (isAnd : Bool) (rows : List (Row (Bool × U64) U64)) : List U64 := (rows.filter fun r => r.real.1 != isAnd).map (·.real.2)

theorem xorAns_eq (isAnd : Bool) (rows : List (Row (Bool × U64) U64)) :
    xorAns isAnd rows = if isAnd then rows.all (·.real.1) else rows.any (·.real.1) := by
  have key : ∀ (l : List (Row (Bool × U64) U64)) (s : Bool), l.foldl (fun s r => if isAnd then s && r.real.1 else s || r.real.1) s =
      if isAnd then s && l.all (·.real.1) else s || l.any (·.real.1) := by
    intro l
    induction l with
    | nil => intro s; cases isAnd <;> simp
    | cons r l ih => intro s; rw [List.foldl_cons, ih]; cases isAnd <;> simp [Bool.and_assoc, Bool.or_assoc]
  rw [xorAns, key]
  cases isAnd <;> simp

/-- C59 for AND and OR: whatever the client program draws, server 0 answers; if all values are the neutral one (all true for AND, all false
for OR) the answer is the conjunction or disjunction for sure; otherwise it is unless the words of the deciding submissions XOR to zero. The
client program prints the conjunction or disjunction. -/
theorem C59_xor (c : StoreCfg) {g0 g1 : StoreRng} (hg : GoodRng intModulus g0) {nbits : ℕ} (coef : ℕ → ℤ) (isAnd : Bool) {n : ℕ} (hn : n < 2 ^ 32)
    (mx : BitVec 32) (g : Prg) (hk : ((uploadLoop (xorOne isAnd) n g).map (·.pk)).Nodup) {e0 e1 : Env} {s0 s1 : Srv}
    (h : Ready e0 e1 s0 s1 (xorClient isAnd n mx g).1 (xorClient isAnd n mx g).2.1) :
    ∃ r s0' s1', Always (iteration false c g0 nbits coef e0 s0) (iteration true c g1 nbits coef e1 s1) (.flag (.ans r), s0') (.flag .noAns, s1') ∧
      (∃ y, InStep y s0' s1') ∧
      (xorClient isAnd n mx g).2.2 =
        (if isAnd then (uploadLoop (xorOne isAnd) n g).all (·.real.1) else (uploadLoop (xorOne isAnd) n g).any (·.real.1)) ∧
      ((∀ w ∈ uploadLoop (xorOne isAnd) n g, w.real.1 = isAnd) → r = (xorClient isAnd n mx g).2.2) ∧
      ((∃ w ∈ uploadLoop (xorOne isAnd) n g, w.real.1 ≠ isAnd) →
        (r = (xorClient isAnd n mx g).2.2 ↔ xorAll (decidingWords isAnd (uploadLoop (xorOne isAnd) n g)) ≠ 0#64)) := by
  obtain ⟨y, hy⟩ := h.step
  obtain ⟨k0, k1⟩ := upload_keyed (one := xorOne isAnd) (n := n) (g := g)
  set rows := uploadLoop (xorOne isAnd) n g with hrows
  have l0 : (sent0 rows).length = n := by simp [sent0, hrows, upload_length]
  have l1 : (sent1 rows).length = n := by simp [sent1, hrows, upload_length]
  obtain ⟨a, s0', s1', hP, hA, hI⟩ := iteration_pair c (g1 := g1) hg (nbits := nbits) coef (b := .xor isAnd (sent0 rows) (sent1 rows)) (e0 := e0) (e1 := e1)
    ⟨[], [], by rw [h.stream0, l0, List.append_nil]; exact opens_init _ hn _ _, by rw [h.stream1, l1, List.append_nil]; exact opens_init _ hn _ _⟩
    ⟨k0, k1⟩ h.ord h.draw hy
  set cs : List XorClient := rows.map fun r => ⟨r.pk, r.real.1, r.real.2, r.share0⟩ with hcs
  have hcpk : cs.map (·.pk) = rows.map (·.pk) := by rw [hcs, List.map_map]; rfl
  have hsh : ∀ r ∈ rows, r.share1 = r.share0 ^^^ xorEncode isAnd r.real.1 r.real.2 := by
    intro r hr
    obtain ⟨g', rfl⟩ := upload_mem hr
    rfl
  have hp0 : (sent0 rows).Perm (cs.map fun c => (c.pk, (clientXor isAnd c.value c.rand c.share0).1)) := by
    rw [hcs, List.map_map]; exact List.Perm.refl _
  have hp1 : (sent1 rows).Perm (cs.map fun c => (c.pk, (clientXor isAnd c.value c.rand c.share0).2)) := by
    rw [hcs, List.map_map]
    refine List.Perm.of_eq (List.map_congr_left fun r hr => ?_)
    rw [hsh r hr]; rfl
  have hagg := xorAgg_honest isAnd cs (by rw [hcpk]; exact hk) _ _ hp0 hp1
  obtain ⟨-, hb⟩ := bothKeys_honest rows (·.pk) (·.share0) (·.share1) hk _ _ (List.Perm.refl _) (List.Perm.refl _)
  have hcard : (bothKeys (fun _ => true) (sent0 rows) (sent1 rows)).card = n := by
    rw [show bothKeys (fun _ => true) (sent0 rows) (sent1 rows) = _ from hb, List.toFinset_card_of_nodup hk, List.length_map, hrows, upload_length]
  have hrand : xorRands isAnd cs = xorAll (decidingWords isAnd rows) := by
    unfold xorRands decidingWords
    rw [hcs, List.filter_map, List.map_map]; rfl
  have hA : a = _ := hA
  rw [hcard, l0, verdict_full, hagg, hrand] at hA
  rw [hA] at hP
  have hans : (xorClient isAnd n mx g).2.2 = if isAnd then rows.all (·.real.1) else rows.any (·.real.1) := xorAns_eq isAnd rows
  refine ⟨_, s0', s1', hP.always, ⟨_, hI⟩, hans, ?_, ?_⟩
  · intro hall
    have e : decidingWords isAnd rows = [] := by
      unfold decidingWords
      rw [List.map_eq_nil_iff, List.filter_eq_nil_iff]
      intro r hr
      simp [hall r hr]
    rw [e, hans]
    cases isAnd
    · simp [xorAll]; exact hall
    · simp [xorAll]; exact hall
  · rintro ⟨w, hw, hne⟩
    rw [hans]
    generalize xorAll (decidingWords isAnd rows) = x
    cases isAnd
    · have : rows.any (·.real.1) = true := List.any_eq_true.2 ⟨w, hw, by simpa using hne⟩
      simp [this]
    · have : rows.all (·.real.1) = false := List.all_eq_false.2 ⟨w, hw, by simpa using hne⟩
      simp [this]

/-! ## MAX and MIN -/

/-- The words that the submissions with value `v` carry in column `j`. -/
def columnWords (v j : ℕ) (rows : List (Row (ℕ × List U64) (List U64))) : List U64 := (rows.filter fun r => r.real.1 = v).map fun r => r.real.2.getD j 0#64

/-- The words in column `j` of the submissions that reach it. -/
def reachWords (isMax : Bool) (B j : ℕ) (rows : List (Row (ℕ × List U64) (List U64))) : List U64 :=
  (rows.filter fun r => j ≤ maxPos isMax B r.real.1).map fun r => r.real.2.getD j 0#64

/-- The bound used by the client program: `max_int` cut to 32 bits. -/
def maxBound (nbits : ℕ) : ℕ := ((1#64 <<< nbits : U64).setWidth 32 : BitVec 32).toNat

theorem maxBound_eq {nbits : ℕ} (h : nbits ≤ 31) : maxBound nbits = 2 ^ nbits := by
  have : (2 : ℕ) ^ nbits ≤ 2 ^ 31 := Nat.pow_le_pow_right (by norm_num) h
  rw [maxBound, BitVec.toNat_setWidth, shl_toNat (by omega), Nat.mod_eq_of_lt (by omega)]

theorem maxAns_max (B : ℕ) (rows : List (Row (ℕ × List U64) (List U64))) : (∀ r ∈ rows, r.real.1 ≤ maxAns true B rows) ∧
    (rows ≠ [] → ∃ r ∈ rows, r.real.1 = maxAns true B rows) := by
  have key : ∀ (l : List (Row (ℕ × List U64) (List U64))) (s : ℕ), let m := l.foldl (fun s r => if s < r.real.1 then r.real.1 else s) s
      s ≤ m ∧ (∀ r ∈ l, r.real.1 ≤ m) ∧ (m = s ∨ ∃ r ∈ l, r.real.1 = m) := by
    intro l
    induction l with
    | nil => intro s; simp
    | cons r l ih =>
      intro s
      obtain ⟨h1, h2, h3⟩ := ih (if s < r.real.1 then r.real.1 else s)
      simp only [List.foldl_cons] at h1 h2 h3 ⊢
      refine ⟨le_trans (by split <;> omega) h1, ?_, ?_⟩
      · intro q hq
        rcases List.mem_cons.1 hq with rfl | hq
        · exact le_trans (by split <;> omega) h1
        · exact h2 q hq
      · rcases h3 with h3 | ⟨q, hq, e⟩
        · by_cases hh : s < r.real.1
          · rw [if_pos hh] at h3
            right
            exact ⟨r, List.mem_cons_self, by rw [if_pos hh, h3]⟩
          · rw [if_neg hh] at h3
            left
            rw [if_neg hh, h3]
        · exact Or.inr ⟨q, List.mem_cons_of_mem _ hq, e⟩
  obtain ⟨-, h2, h3⟩ := key rows 0
  have e : maxAns true B rows = rows.foldl (fun s r => if s < r.real.1 then r.real.1 else s) 0 := by simp [maxAns]
  rw [e]
  refine ⟨h2, fun hne => ?_⟩
  rcases h3 with h3 | h3
  · obtain ⟨r, hr⟩ := List.exists_mem_of_ne_nil _ hne
    have := h2 r hr
    exact ⟨r, hr, by omega⟩
  · exact h3

theorem maxAns_min (B : ℕ) (rows : List (Row (ℕ × List U64) (List U64))) (hB : ∀ r ∈ rows, r.real.1 ≤ B) : (∀ r ∈ rows, maxAns false B rows ≤ r.real.1) ∧
    (rows ≠ [] → ∃ r ∈ rows, r.real.1 = maxAns false B rows) := by
  have key : ∀ (l : List (Row (ℕ × List U64) (List U64))) (s : ℕ), let m := l.foldl (fun s r => if r.real.1 < s then r.real.1 else s) s
      m ≤ s ∧ (∀ r ∈ l, m ≤ r.real.1) ∧ (m = s ∨ ∃ r ∈ l, r.real.1 = m) := by
    intro l
    induction l with
    | nil => intro s; simp
    | cons r l ih =>
      intro s
      obtain ⟨h1, h2, h3⟩ := ih (if r.real.1 < s then r.real.1 else s)
      simp only [List.foldl_cons] at h1 h2 h3 ⊢
      refine ⟨h1.trans (by split <;> omega), ?_, ?_⟩
      · intro q hq
        rcases List.mem_cons.1 hq with rfl | hq
        · exact h1.trans (by split <;> omega)
        · exact h2 q hq
      · rcases h3 with h3 | ⟨q, hq, e⟩
        · by_cases hh : r.real.1 < s
          · rw [if_pos hh] at h3
            right
            exact ⟨r, List.mem_cons_self, by rw [if_pos hh, h3]⟩
          · rw [if_neg hh] at h3
            left
            rw [if_neg hh, h3]
        · exact Or.inr ⟨q, List.mem_cons_of_mem _ hq, e⟩
  obtain ⟨-, h2, h3⟩ := key rows B
  have e : maxAns false B rows = rows.foldl (fun s r => if r.real.1 < s then r.real.1 else s) B := by simp [maxAns]
  rw [e]
  refine ⟨h2, fun hne => ?_⟩
  rcases h3 with h3 | h3
  · obtain ⟨r, hr⟩ := List.exists_mem_of_ne_nil _ hne
    have := h2 r hr
    have := hB r hr
    exact ⟨r, hr, by omega⟩
  · exact h3

/-- What is compared: a value is at least as extreme as another one. -/
def atLeast (isMax : Bool) (a b : ℕ) : Prop := if isMax then b ≤ a else a ≤ b

/-- C59 for MAX and MIN, widths up to 31 bits, at least one submission: the client program prints the extreme value; server 0 answers with it
unless the words drawn for its column by the submissions with this value XOR to zero. If they do, but not all columns cancel, the answer is
a value that is less extreme. -/
theorem C59_max (c : StoreCfg) {g0 g1 : StoreRng} (hg : GoodRng intModulus g0) {nbits : ℕ} (hb : nbits ≤ 31) (coef : ℕ → ℤ) (isMax : Bool) {n : ℕ}
    (hpos : 0 < n) (hsz : n * (2 ^ nbits + 1) < 2 ^ 32) (g : Prg) (hk : ((uploadLoop (maxOne isMax (2 ^ nbits)) n g).map (·.pk)).Nodup) {e0 e1 : Env}
    {s0 s1 : Srv} (h : Ready e0 e1 s0 s1 (maxClient isMax nbits n g).1 (maxClient isMax nbits n g).2.1) :
    let rows := uploadLoop (maxOne isMax (2 ^ nbits)) n g
    let printed := (maxClient isMax nbits n g).2.2
    (∀ r ∈ rows, r.real.1 ≤ 2 ^ nbits) ∧ (∃ r ∈ rows, r.real.1 = printed) ∧ (∀ r ∈ rows, atLeast isMax printed r.real.1) ∧
    ((∃ j ≤ 2 ^ nbits, xorAll (reachWords isMax (2 ^ nbits) j rows) ≠ 0#64) →
      ∃ v s0' s1', Always (iteration false c g0 nbits coef e0 s0) (iteration true c g1 nbits coef e1 s1) (.nat (.ans v), s0') (.nat .noAns, s1') ∧
      (∃ y, InStep y s0' s1') ∧ atLeast isMax printed v ∧
      (v = printed ↔ xorAll (columnWords printed (maxPos isMax (2 ^ nbits) printed) rows) ≠ 0#64)) ∧
    (xorAll (columnWords printed (maxPos isMax (2 ^ nbits) printed) rows) ≠ 0#64 →
      ∃ j ≤ 2 ^ nbits, xorAll (reachWords isMax (2 ^ nbits) j rows) ≠ 0#64) := by
  intro rows printed
  have hB31 : (2 : ℕ) ^ nbits ≤ 2 ^ 31 := Nat.pow_le_pow_right (by norm_num) hb
  have hmb := maxBound_eq hb
  unfold maxBound at hmb
  have hclient : maxClient isMax nbits n g = (encInit (initMsg (if isMax then 5#32 else 6#32) n ((1#64 <<< nbits : U64).setWidth 32)) ++ maxBytes (sent0 rows),
      encInit (initMsg (if isMax then 5#32 else 6#32) n ((1#64 <<< nbits : U64).setWidth 32)) ++ maxBytes (sent1 rows), maxAns isMax (2 ^ nbits) rows) := by
    simp only [maxClient, hmb, shl_toNat (show nbits < 64 by omega)]
    rfl
  have hpr : printed = maxAns isMax (2 ^ nbits) rows := congrArg (·.2.2) hclient
  rw [hclient] at h
  have hlen : rows.length = n := upload_length _ _ _
  have hne : rows ≠ [] := by intro e; rw [e] at hlen; simp at hlen; omega
  have hrange : ∀ r ∈ rows, r.real.1 ≤ 2 ^ nbits := by
    intro r hr
    obtain ⟨g', rfl⟩ := upload_mem hr
    exact Nat.lt_succ_iff.1 (Nat.mod_lt _ (Nat.succ_pos _))
  have hext : (∃ r ∈ rows, r.real.1 = printed) ∧ ∀ r ∈ rows, atLeast isMax printed r.real.1 := by
    rw [hpr]
    cases hm : isMax
    · obtain ⟨a, b⟩ := maxAns_min (2 ^ nbits) rows hrange
      exact ⟨b hne, fun r hr => by simpa [atLeast] using a r hr⟩
    · obtain ⟨a, b⟩ := maxAns_max (2 ^ nbits) rows
      exact ⟨b hne, fun r hr => by simpa [atLeast] using a r hr⟩
  have hpB : printed ≤ 2 ^ nbits := by
    obtain ⟨r, hr, e⟩ := hext.1
    rw [← e]; exact hrange r hr
  set cs : List MaxClient := rows.map fun r => ⟨r.pk, r.real.1, fun j => r.real.2.getD j 0#64, fun j => r.share0.getD j 0#64⟩ with hcs
  have hcpk : cs.map (·.pk) = rows.map (·.pk) := by rw [hcs, List.map_map]; rfl
  have hsh : ∀ r ∈ rows, (clientMax isMax (2 ^ nbits) r.real.1 (fun j => r.real.2.getD j 0#64) fun j => r.share0.getD j 0#64) = (r.share0, r.share1) := by
    intro r hr
    obtain ⟨g', rfl⟩ := upload_mem hr
    have e : ∀ (f : ℕ → U64), (List.range (2 ^ nbits + 1)).map (fun j => ((List.range (2 ^ nbits + 1)).map f).getD j 0#64) = (List.range (2 ^ nbits + 1)).map f := by
      intro f
      refine List.map_congr_left fun j hj => ?_
      rw [range_getD, if_pos (by have := List.mem_range.1 hj; omega)]
    simp only [maxOne, clientMax, e]
  have hh : HonestMax isMax (2 ^ nbits) cs (sent0 rows) (sent1 rows) := by
    refine ⟨by rw [hcpk]; exact hk, ?_, ?_, ?_, ?_⟩
    · intro c hc
      obtain ⟨r, hr, rfl⟩ := List.mem_map.1 hc
      obtain ⟨g', rfl⟩ := upload_mem hr
      exact C54_length _
    · intro c hc
      obtain ⟨r, hr, rfl⟩ := List.mem_map.1 hc
      exact hrange r hr
    · rw [hcs, List.map_map]
      refine List.Perm.of_eq (List.map_congr_left fun r hr => ?_)
      rw [Function.comp_apply, hsh r hr]
    · rw [hcs, List.map_map]
      refine List.Perm.of_eq (List.map_congr_left fun r hr => ?_)
      rw [Function.comp_apply, hsh r hr]
  have l0 : (sent0 rows).length = n := by simp [sent0, hlen]
  have l1 : (sent1 rows).length = n := by simp [sent1, hlen]
  -- the column of the extreme value
  have hj : maxPos isMax (2 ^ nbits) printed ≤ 2 ^ nbits := by unfold maxPos; split <;> omega
  have hposle : ∀ r ∈ rows, maxPos isMax (2 ^ nbits) r.real.1 ≤ maxPos isMax (2 ^ nbits) printed := by
    intro r hr
    have := hext.2 r hr
    unfold atLeast at this
    unfold maxPos
    split <;> (simp_all; try omega)
  have hcol : maxCol (sent0 rows) (sent1 rows) (maxPos isMax (2 ^ nbits) printed) = xorAll (columnWords printed (maxPos isMax (2 ^ nbits) printed) rows) := by
    rw [hh.col _ hj, colRands, columnWords, hcs, List.filter_map, List.map_map]
    congr 1
    have : rows.filter ((fun c : MaxClient => decide (maxPos isMax (2 ^ nbits) printed ≤ maxPos isMax (2 ^ nbits) c.value)) ∘
        fun r => ⟨r.pk, r.real.1, fun j => r.real.2.getD j 0#64, fun j => r.share0.getD j 0#64⟩) = rows.filter fun r => r.real.1 = printed := by
      refine List.filter_congr fun r hr => ?_
      have h1 := hposle r hr
      have h2 := hrange r hr
      simp only [Function.comp_apply, decide_eq_decide]
      clear * - h1 h2 hpB
      cases isMax <;> simp only [maxPos, Bool.false_eq_true, if_true, if_false] at h1 ⊢ <;> omega
    rw [this]; rfl
  have habove : ∀ i, maxPos isMax (2 ^ nbits) printed < i → i ≤ 2 ^ nbits → maxCol (sent0 rows) (sent1 rows) i = 0#64 := by
    intro i h1 h2
    refine hh.above (maxPos isMax (2 ^ nbits) printed) (fun c hc => ?_) i h2 h1
    obtain ⟨r, hr, rfl⟩ := List.mem_map.1 hc
    exact hposle r hr
  have hreach : ∀ j ≤ 2 ^ nbits, maxCol (sent0 rows) (sent1 rows) j = xorAll (reachWords isMax (2 ^ nbits) j rows) := by
    intro j hj
    rw [hh.col j hj, colRands, reachWords, hcs, List.filter_map, List.map_map]
    rfl
  refine ⟨hrange, hext.1, hext.2, fun hcn => ?_, fun hne => ⟨_, hj, by rw [← hreach _ hj, hcol]; exact hne⟩⟩
  replace hcn : ∃ j ≤ 2 ^ nbits, maxCol (sent0 rows) (sent1 rows) j ≠ 0#64 := by
    obtain ⟨j, hj, hne⟩ := hcn
    exact ⟨j, hj, by rw [hreach j hj]; exact hne⟩
  obtain ⟨y, hy⟩ := h.step
  have hn32 : n < 2 ^ 32 := lt_of_le_of_lt (Nat.le_mul_of_pos_right _ (by positivity)) hsz
  have ho : ∀ subs, Opens (if isMax then 5#32 else 6#32) n (some (2 ^ nbits))
      (encInit (initMsg (if isMax then 5#32 else 6#32) n ((1#64 <<< nbits : U64).setWidth 32)) ++ maxBytes subs) (encMaxShares subs ++ []) := by
    intro subs
    refine ⟨hn32, (1#64 <<< nbits : U64).setWidth 32, fun b hb => ?_, ?_⟩
    · cases hb; exact hmb
    · rw [List.append_nil]
      simp [encMaxShares, maxBytes, initMsg, List.flatMap]
  obtain ⟨a, s0', s1', hP, hA, hI⟩ := iteration_pair c (g1 := g1) hg (nbits := nbits) coef (b := .max isMax (2 ^ nbits) (sent0 rows) (sent1 rows)) (e0 := e0) (e1 := e1)
    ⟨[], [], by rw [h.stream0, l0]; exact ho _, by rw [h.stream1, l1]; exact ho _⟩
    ⟨hh.keyed0, hh.keyed1, hh.rows0, hh.rows1, by omega, by rw [l0]; exact hsz, by rw [l1]; exact hsz, Or.inr hcn⟩ h.ord h.draw hy
  simp only [Batch.Answers, if_neg hh.all] at hA
  obtain ⟨j, hjB, hjne, hjz, rfl⟩ := hA
  have hjle : j ≤ maxPos isMax (2 ^ nbits) printed := by
    by_contra hlt
    exact hjne (habove j (by omega) hjB)
  refine ⟨_, s0', s1', hP.always, ⟨_, hI⟩, ?_, ?_⟩
  · unfold atLeast
    unfold maxPos at hjle
    split <;> simp_all
    omega
  · rw [← hcol]
    have : ((if isMax = true then j else 2 ^ nbits - j) = printed) ↔ j = maxPos isMax (2 ^ nbits) printed := by
      unfold maxPos
      split <;> omega
    rw [this]
    constructor
    · rintro rfl; exact hjne
    · intro hne
      by_contra hd
      exact hne (hjz _ (by omega) hj)

end Verif

import Verif.PropsView
import Mathlib.Logic.Equiv.Basic
import Mathlib.Data.List.FinRange
import Mathlib.Data.Fin.VecNotation

/-!
# C63, continued: what the servers learn in AND, OR, MAX and MIN
-/

namespace Verif

/-- The order of iteration over a map depends on the keys only, as that of `std::unordered_map` does. -/
def ByKeys {α : Type} (ord : Map α → Map α) : Prop := ∀ m m' : Map α, m.keys = m'.keys → (ord m).keys = (ord m').keys

theorem admit_keys {α β : Type} (subs : List (Bytes × α)) (subs' : List (Bytes × β)) (m : Map α) (m' : Map β)
    (h : subs.map (·.1) = subs'.map (·.1)) (hm : m.keys = m'.keys) :
    (admit (fun _ => true) subs m).keys = (admit (fun _ => true) subs' m').keys := by
  induction subs generalizing subs' m m' with
  | nil => cases subs' with
    | nil => exact hm
    | cons e l => simp at h
  | cons e l ih => cases subs' with
    | nil => simp at h
    | cons e' l' =>
      obtain ⟨k, v⟩ := e
      obtain ⟨k', v'⟩ := e'
      simp only [List.map_cons, List.cons.injEq] at h
      obtain ⟨rfl, h⟩ := h
      have hs : (m.lookup k).isSome = (m'.lookup k).isSome := by
        rw [Bool.eq_iff_iff, lookup_isSome_iff, lookup_isSome_iff, hm]
      simp only [admit, hs]
      split
      · exact ih _ _ _ h hm
      · refine ih _ _ _ h ?_
        simp only [Map.keys] at hm
        simp [Map.keys, hm]

/-! ## Sums of random words -/

section
variable {ι : Type} [DecidableEq ι]

/-- The XOR of the words of a set of clients. -/
def xorSet (S : Finset ι) (f : ι → U64) : U64 := S.fold (· ^^^ ·) 0#64 f

theorem xorSet_split {S : Finset ι} {i : ι} (hi : i ∈ S) (f : ι → U64) : xorSet S f = f i ^^^ xorSet (S.erase i) f := by
  conv_lhs => rw [← Finset.insert_erase hi]
  exact Finset.fold_insert (Finset.notMem_erase i S)

/-- Replace the word of one client by the sum. -/
def mixIn (S : Finset ι) (i : ι) (f : ι → U64) : ι → U64 := Function.update f i (xorSet S f)

theorem mixIn_invol {S : Finset ι} {i : ι} (hi : i ∈ S) (f : ι → U64) : mixIn S i (mixIn S i f) = f := by
  have e : xorSet (S.erase i) (mixIn S i f) = xorSet (S.erase i) f := by
    unfold xorSet
    refine Finset.fold_congr fun k hk => ?_
    exact Function.update_of_ne (Finset.ne_of_mem_erase hk) _ _
  have h2 : xorSet S (mixIn S i f) = f i := by
    rw [xorSet_split hi, e]
    show Function.update f i (xorSet S f) i ^^^ _ = _
    rw [Function.update_self, xorSet_split hi f, BitVec.xor_assoc, BitVec.xor_self, BitVec.xor_zero]
  funext k
  by_cases hk : k = i
  · subst hk
    show Function.update (mixIn S k f) k (xorSet S (mixIn S k f)) k = _
    rw [Function.update_self, h2]
  · show Function.update (mixIn S i f) i _ k = _
    rw [Function.update_of_ne hk]
    exact Function.update_of_ne hk _ _

/-- For two non-empty sets of clients, or two empty ones, the draws can be rearranged one to one so that the sums agree. -/
theorem xorSet_equiv (S T : Finset ι) (h : S.Nonempty ↔ T.Nonempty) :
    ∃ e : (ι → U64) ≃ (ι → U64), ∀ f, xorSet S f = xorSet T (e f) := by
  by_cases hS : S.Nonempty
  · obtain ⟨i, hi⟩ := hS
    obtain ⟨j, hj⟩ := h.1 ⟨i, hi⟩
    let eS : (ι → U64) ≃ (ι → U64) := ⟨mixIn S i, mixIn S i, mixIn_invol hi, mixIn_invol hi⟩
    let eT : (ι → U64) ≃ (ι → U64) := ⟨mixIn T j, mixIn T j, mixIn_invol hj, mixIn_invol hj⟩
    refine ⟨eS.trans ((Equiv.arrowCongr (Equiv.swap i j) (Equiv.refl U64)).trans eT), fun f => ?_⟩
    have h1 : ∀ g, xorSet T (mixIn T j g) = g j := by
      intro g
      have := congrFun (mixIn_invol hj g) j
      unfold mixIn at this ⊢
      rwa [Function.update_self] at this
    show _ = xorSet T (mixIn T j _)
    rw [h1]
    simp [eS, mixIn, Equiv.arrowCongr]
  · have hS' := Finset.not_nonempty_iff_eq_empty.1 hS
    have hT' := Finset.not_nonempty_iff_eq_empty.1 fun hT => hS (h.2 hT)
    exact ⟨Equiv.refl _, fun f => by rw [hS', hT']; rfl⟩

theorem xorSet_list {l : List ι} (hn : l.Nodup) (f : ι → U64) : xorSet l.toFinset f = xorAll (l.map f) := by
  induction l with
  | nil => rfl
  | cons k l ih =>
    rw [List.nodup_cons] at hn
    have := ih hn.2
    unfold xorSet at this ⊢
    rw [List.toFinset_cons, Finset.fold_insert (by simp [hn.1]), this]
    rfl
end

theorem xorSet_filter {n : ℕ} (p : Fin n → Bool) (f : Fin n → U64) :
    xorSet (Finset.univ.filter fun i => p i = true) f = xorAll (((List.finRange n).filter p).map f) := by
  rw [← xorSet_list ((List.nodup_finRange n).filter _)]
  congr 1
  ext i
  simp

/-! ## AND and OR -/

theorem xorOp_view (isAnd : Bool) (subs0 subs1 : List (Bytes × U64)) (rest0 rest1 : Bytes) (hk0 : Keyed subs0) (hk1 : Keyed subs1)
    (hlen : subs1.length < 2 ^ 32) (ord : Map U64 → Map U64) (ho : IsOrder ord) :
    ∃ r, PairW (xorOpOp0 isAnd subs0.length (encIntShares subs0 ++ rest0)) (xorOpOp1 subs1.length (encIntShares subs1 ++ rest1) ord) r .noAns
      (seenBytes (encSize (BitVec.ofNat 64 (ord (admit (fun _ => true) subs1 [])).keys.length)) ++
        seenKeys (ord (admit (fun _ => true) subs1 [])).keys ++ seenBytes (encU64 (xorAgg subs0 subs1 ^^^
          xorFold (admit (fun _ => true) subs0 []) (ord (admit (fun _ => true) subs1 [])).keys
            (matched (admit (fun _ => true) subs0 []) (ord (admit (fun _ => true) subs1 [])).keys))))
      (seenBytes (encBools (matched (admit (fun _ => true) subs0 []) (ord (admit (fun _ => true) subs1 [])).keys))) := by
  unfold xorOpOp0 xorOpOp1
  rw [xorIntake_stream subs0 hk0, xorIntake_stream subs1 hk1]
  show ∃ r, PairW (xorOp0 _ _ _) (xorOp1 _ _) r _ _ _
  have hp := ho (admit (fun _ => true) subs1 [])
  generalize ord (admit (fun _ => true) subs1 []) = o at hp
  unfold xorOp0 xorOp1
  have hol := order_length hp
  have hlen' : o.length = (matched (admit (fun _ => true) subs0 []) o.keys).length := by simp [matched_length]
  have hagg : xorFold (admit (fun _ => true) subs1 []) o.keys (matched (admit (fun _ => true) subs0 []) o.keys) =
      xorAgg subs0 subs1 ^^^ xorFold (admit (fun _ => true) subs0 []) o.keys (matched (admit (fun _ => true) subs0 []) o.keys) := by
    have : xorAgg subs0 subs1 = xorFold (admit (fun _ => true) subs0 []) o.keys (matched (admit (fun _ => true) subs0 []) o.keys) ^^^
        xorFold (admit (fun _ => true) subs1 []) o.keys (matched (admit (fun _ => true) subs0 []) o.keys) := by
      rw [xorFold_matched _ _ _ (order_nodup hp), xorFold_matched _ _ _ (order_nodup hp), bothKeys_eq _ _ _ _ hp, xorOver_xor]
      simp only [C34_first_admissible]
      rfl
    rw [this, BitVec.xor_comm, ← BitVec.xor_assoc, BitVec.xor_self, BitVec.zero_xor]
  rw [hlen', ← hagg]
  exact ⟨_, ((listen_pairW o.keys (order_keyed hp hk1) (by simp; omega)).bind ((PairW.send01 (reads_bools _)).bind
    (tail_pairW (fun b => finish _ _ (if isAnd then decide (_ ^^^ b = 0#64) else decide (_ ^^^ b ≠ 0#64))) _))).cast rfl rfl
      (by simp) (by simp)⟩

/-- C63 for AND and OR, server 1: its view depends on the keys at server 0 only. -/
theorem C63_xor_server1 (isAnd : Bool) (subs0 subs0' subs1 : List (Bytes × U64)) (rest0 rest0' rest1 : Bytes) (hk0 : Keyed subs0)
    (hk0' : Keyed subs0') (hk1 : Keyed subs1) (hlen : subs1.length < 2 ^ 32) (ord : Map U64 → Map U64) (ho : IsOrder ord)
    (hkeys : SameKeys (fun _ => true) subs0 subs0') :
    ∃ v, Sees1 (xorOpOp0 isAnd subs0.length (encIntShares subs0 ++ rest0)) (xorOpOp1 subs1.length (encIntShares subs1 ++ rest1) ord) v ∧
      Sees1 (xorOpOp0 isAnd subs0'.length (encIntShares subs0' ++ rest0')) (xorOpOp1 subs1.length (encIntShares subs1 ++ rest1) ord) v := by
  obtain ⟨r, h⟩ := xorOp_view isAnd subs0 subs1 rest0 rest1 hk0 hk1 hlen ord ho
  obtain ⟨r', h'⟩ := xorOp_view isAnd subs0' subs1 rest0' rest1 hk0' hk1 hlen ord ho
  have e : matched (admit (fun _ => true) subs0 []) (ord (admit (fun _ => true) subs1 [])).keys =
      matched (admit (fun _ => true) subs0' []) (ord (admit (fun _ => true) subs1 [])).keys := by
    unfold matched
    refine List.map_congr_left fun k _ => ?_
    rw [C34_first_admissible, C34_first_admissible]
    exact hkeys k
  rw [← e] at h'
  exact ⟨_, h.sees1, h'.sees1⟩

/-- C63 for AND and OR, server 0: honest clients with distinct keys and fixed shares for server 0, arriving in the orders `l0` and `l1`, and two
assignments of values with the same answer. The clients' random words can be rearranged one to one so that server 0 sees the same. The words
are uniform, so its view has the same distribution: it learns the answer, not how many clients decided it or which. -/
theorem C63_xor_server0 (isAnd : Bool) {n : ℕ} (hn : n < 2 ^ 32) (pk : Fin n → Bytes) (hinj : Function.Injective pk)
    (hpk : ∀ i, (pk i).length = pkLength) (share0 : Fin n → U64) (values values' : Fin n → Bool)
    (hans : (∀ i, values i = isAnd) ↔ ∀ i, values' i = isAnd) (l0 l1 : List (Fin n)) (h0 : l0.Perm (List.finRange n))
    (h1 : l1.Perm (List.finRange n)) (rest0 rest1 : Bytes) (ord : Map U64 → Map U64) (ho : IsOrder ord) (hby : ByKeys ord) :
    ∃ e : (Fin n → U64) ≃ (Fin n → U64), ∀ rand : Fin n → U64, ∃ v,
      Sees0 (xorOpOp0 isAnd n (encIntShares (l0.map fun i => (pk i, (clientXor isAnd (values i) (rand i) (share0 i)).1)) ++ rest0))
        (xorOpOp1 n (encIntShares (l1.map fun i => (pk i, (clientXor isAnd (values i) (rand i) (share0 i)).2)) ++ rest1) ord) v ∧
      Sees0 (xorOpOp0 isAnd n (encIntShares (l0.map fun i => (pk i, (clientXor isAnd (values' i) (e rand i) (share0 i)).1)) ++ rest0))
        (xorOpOp1 n (encIntShares (l1.map fun i => (pk i, (clientXor isAnd (values' i) (e rand i) (share0 i)).2)) ++ rest1) ord) v := by
  have key : ∀ (values : Fin n → Bool) (rand : Fin n → U64),
      xorAgg (l0.map fun i => (pk i, (clientXor isAnd (values i) (rand i) (share0 i)).1))
        (l1.map fun i => (pk i, (clientXor isAnd (values i) (rand i) (share0 i)).2)) =
        xorSet (Finset.univ.filter fun i => (values i != isAnd) = true) rand := by
    intro values rand
    let cs := (List.finRange n).map fun i => (⟨pk i, values i, rand i, share0 i⟩ : XorClient)
    have hd : (cs.map (·.pk)).Nodup := by
      simp only [cs, List.map_map]
      exact (List.nodup_finRange n).map hinj
    rw [xorAgg_honest isAnd cs hd _ _ (by simp only [cs, List.map_map]; exact h0.map _) (by simp only [cs, List.map_map]; exact h1.map _),
      xorSet_filter, xorRands]
    simp only [cs, List.filter_map, List.map_map]
    rfl
  have hne : (Finset.univ.filter fun i => (values i != isAnd) = true).Nonempty ↔ (Finset.univ.filter fun i => (values' i != isAnd) = true).Nonempty := by
    have : ∀ values : Fin n → Bool, (Finset.univ.filter fun i => (values i != isAnd) = true).Nonempty ↔ ¬ ∀ i, values i = isAnd := by
      intro values
      simp [Finset.Nonempty]
    rw [this, this, hans]
  obtain ⟨e, he⟩ := xorSet_equiv _ _ hne
  refine ⟨e, fun rand => ?_⟩
  have len : ∀ l : List (Fin n), l.Perm (List.finRange n) → l.length = n := fun l hl => by rw [hl.length_eq, List.length_finRange]
  have view : ∀ (values : Fin n → Bool) (rand : Fin n → U64), _ := fun values rand =>
    xorOp_view isAnd (l0.map fun i => (pk i, (clientXor isAnd (values i) (rand i) (share0 i)).1))
      (l1.map fun i => (pk i, (clientXor isAnd (values i) (rand i) (share0 i)).2)) rest0 rest1
      (by intro x hx; obtain ⟨i, -, rfl⟩ := List.mem_map.1 hx; exact hpk i) (by intro x hx; obtain ⟨i, -, rfl⟩ := List.mem_map.1 hx; exact hpk i)
      (by rw [List.length_map, len l1 h1]; exact hn) ord ho
  obtain ⟨r, hv⟩ := view values rand
  obtain ⟨r', hv'⟩ := view values' (e rand)
  have hko : (ord (admit (fun _ => true) (l1.map fun i => (pk i, (clientXor isAnd (values' i) (e rand i) (share0 i)).2)) [])).keys =
      (ord (admit (fun _ => true) (l1.map fun i => (pk i, (clientXor isAnd (values i) (rand i) (share0 i)).2)) [])).keys :=
    hby _ _ (admit_keys _ _ _ _ (by simp [List.map_map, Function.comp_def]) rfl)
  have e0 : (l0.map fun i => (pk i, (clientXor isAnd (values' i) (e rand i) (share0 i)).1)) =
      l0.map fun i => (pk i, (clientXor isAnd (values i) (rand i) (share0 i)).1) := rfl
  rw [hko, key, ← he, ← key] at hv'
  simp only [List.length_map, len l0 h0, len l1 h1] at hv hv'
  exact ⟨_, hv.sees0, hv'.sees0⟩

/-- Three clients, OR: one of them saying yes and all of them saying yes look the same to server 0. -/
example (share0 : Fin 3 → U64) :
    ∃ e : (Fin 3 → U64) ≃ (Fin 3 → U64), ∀ rand : Fin 3 → U64, ∃ v,
      Sees0 (xorOpOp0 false 3 (encIntShares ((List.finRange 3).map fun i : Fin 3 =>
          (List.replicate pkLength (BitVec.ofNat 8 i), (clientXor false (decide (i = 0)) (rand i) (share0 i)).1)) ++ []))
        (xorOpOp1 3 (encIntShares ((List.finRange 3).reverse.map fun i : Fin 3 =>
          (List.replicate pkLength (BitVec.ofNat 8 i), (clientXor false (decide (i = 0)) (rand i) (share0 i)).2)) ++ []) List.reverse) v ∧
      Sees0 (xorOpOp0 false 3 (encIntShares ((List.finRange 3).map fun i : Fin 3 =>
          (List.replicate pkLength (BitVec.ofNat 8 i), (clientXor false true (e rand i) (share0 i)).1)) ++ []))
        (xorOpOp1 3 (encIntShares ((List.finRange 3).reverse.map fun i : Fin 3 =>
          (List.replicate pkLength (BitVec.ofNat 8 i), (clientXor false true (e rand i) (share0 i)).2)) ++ []) List.reverse) v :=
  C63_xor_server0 false (by decide) (fun i : Fin 3 => List.replicate pkLength (BitVec.ofNat 8 i)) (by decide) (fun i => List.length_replicate)
    share0 (fun i => decide (i = 0)) (fun _ => true) (by decide) _ _ (List.Perm.refl _) (List.reverse_perm _) [] [] List.reverse
    (fun m => m.reverse_perm) (fun m m' h => by simp [Map.keys] at h ⊢; exact h)

/-! ## MAX and MIN -/

theorem maxOp_view (isMax : Bool) (B : ℕ) (subs0 subs1 : List (Bytes × List U64)) (rest0 rest1 : Bytes) (hk0 : Keyed subs0)
    (hk1 : Keyed subs1) (hr0 : RowsOk B subs0) (hr1 : RowsOk B subs1) (hB : B + 1 < 2 ^ 32) (hs0 : subs0.length * (B + 1) < 2 ^ 32)
    (hs1 : subs1.length * (B + 1) < 2 ^ 32) (ord : Map (List U64) → Map (List U64)) (ho : IsOrder ord)
    (hne : 2 * (bothKeys (fun _ => true) subs0 subs1).card < subs0.length ∨ ∃ j, j ≤ B ∧ maxCol subs0 subs1 j ≠ 0#64) :
    ∃ r, PairW (maxOpOp0 isMax B subs0.length (encMaxShares subs0 ++ rest0)) (maxOpOp1 B subs1.length (encMaxShares subs1 ++ rest1) ord) r .noAns
      (seenBytes (encSize (BitVec.ofNat 64 (ord (admit (fun _ => true) subs1 [])).keys.length)) ++
        seenKeys (ord (admit (fun _ => true) subs1 [])).keys ++ seenBytes (encWords ((List.range (B + 1)).map fun j => maxCol subs0 subs1 j ^^^
          (maxFold B (admit (fun _ => true) subs0 []) (ord (admit (fun _ => true) subs1 [])).keys
            (matched (admit (fun _ => true) subs0 []) (ord (admit (fun _ => true) subs1 [])).keys)).getD j 0#64)))
      (seenBytes (encBools (matched (admit (fun _ => true) subs0 []) (ord (admit (fun _ => true) subs1 [])).keys))) := by
  unfold maxOpOp0 maxOpOp1
  rw [maxIntake_stream B subs0 hk0 hr0 hB hs0, maxIntake_stream B subs1 hk1 hr1 hB hs1]
  have hp := ho (admit (fun _ => true) subs1 [])
  show ∃ r, PairW (maxOp0 _ _ _ _) (maxOp1 _ _ (ord _)) r _ _ _
  generalize ord (admit (fun _ => true) subs1 []) = o at hp
  unfold maxOp0 maxOp1
  have hol := order_length hp
  have hB' : subs1.length ≤ subs1.length * (B + 1) := Nat.le_mul_of_pos_right _ (by omega)
  have hlen' : o.length = (matched (admit (fun _ => true) subs0 []) o.keys).length := by simp [matched_length]
  have hboth : ∀ k ∈ o.keys, (List.lookup k (admit (fun _ => true) subs1 [])).isSome = true := by
    intro k hk
    rw [lookup_isSome_iff]
    exact (hp.map _).mem_iff.1 hk
  have h0 := maxFold_getD B (admit (fun _ => true) subs0 []) (admit (fun _ => true) subs0 []) o.keys (order_nodup hp)
    (fun k _ hk => by rw [C34_first_admissible] at hk ⊢; exact order_row hr0 hk)
  have h1 := maxFold_getD B (admit (fun _ => true) subs1 []) (admit (fun _ => true) subs0 []) o.keys (order_nodup hp)
    (fun k hk _ => by have := hboth k hk; rw [C34_first_admissible] at this ⊢; exact order_row hr1 this)
  have hab : ∀ j, (maxFold B (admit (fun _ => true) subs0 []) o.keys (matched (admit (fun _ => true) subs0 []) o.keys)).getD j 0#64 ^^^
      (maxFold B (admit (fun _ => true) subs1 []) o.keys (matched (admit (fun _ => true) subs0 []) o.keys)).getD j 0#64 = maxCol subs0 subs1 j := by
    intro j
    rw [h0.2, h1.2, xorOver_xor, bothKeys_eq _ _ _ _ hp]
    simp only [C34_first_admissible]
    rfl
  have hb : (List.range (B + 1)).map (fun j => maxCol subs0 subs1 j ^^^
      (maxFold B (admit (fun _ => true) subs0 []) o.keys (matched (admit (fun _ => true) subs0 []) o.keys)).getD j 0#64) =
      maxFold B (admit (fun _ => true) subs1 []) o.keys (matched (admit (fun _ => true) subs0 []) o.keys) := by
    apply List.ext_getElem (by simp [h1.1])
    intro j hj hj'
    rw [List.getElem_map, List.getElem_range, ← hab, BitVec.xor_comm, ← BitVec.xor_assoc, BitVec.xor_self, BitVec.zero_xor,
      List.getD_eq_getElem _ _ hj']
  have hw := reads_words (maxFold B (admit (fun _ => true) subs1 []) o.keys (matched (admit (fun _ => true) subs0 []) o.keys))
  rw [h1.1] at hw
  rw [hlen', hb]
  have fin : ∃ r, (if belowThreshold (numTrue (matched (admit (fun _ => true) subs0 []) o.keys)) subs0.length then .ret .invalid
      else match scanDown (maxFold B (admit (fun _ => true) subs0 []) o.keys (matched (admit (fun _ => true) subs0 []) o.keys))
          (maxFold B (admit (fun _ => true) subs1 []) o.keys (matched (admit (fun _ => true) subs0 []) o.keys)) B with
        | some j => .ret (.ans (if isMax then j else B - j))
        | none => .fault : Proc (Ret ℕ)) = .ret r := by
    rw [count_order _ _ _ _ hp]
    by_cases hc : 2 * (bothKeys (fun _ => true) subs0 subs1).card < subs0.length
    · rw [if_pos ((C48_threshold _ _).2 hc)]; exact ⟨_, rfl⟩
    · rw [if_neg fun h => hc ((C48_threshold _ _).1 h)]
      obtain ⟨j0, hj0, hne0⟩ := hne.resolve_left hc
      have hP : ∃ d, d ≤ B ∧ maxCol subs0 subs1 (B - d) ≠ 0#64 := ⟨B - j0, by omega, by rwa [show B - (B - j0) = j0 by omega]⟩
      classical
      have hs := scanDown_some (a := maxFold B (admit (fun _ => true) subs0 []) o.keys (matched (admit (fun _ => true) subs0 []) o.keys))
        (b := maxFold B (admit (fun _ => true) subs1 []) o.keys (matched (admit (fun _ => true) subs0 []) o.keys)) (B := B)
        (j := B - Nat.find hP) (by omega) (fun h => (Nat.find_spec hP).2 (by rw [← hab, (xor_zero_iff _ _).2 h])) (fun i hi1 hi2 => by
          have := Nat.find_min hP (m := B - i) (by have := (Nat.find_spec hP).1; omega)
          by_contra hne
          exact this ⟨by omega, by rw [show B - (B - i) = i by omega, ← hab]; exact fun h => hne ((xor_zero_iff _ _).1 h)⟩)
      rw [hs]
      exact ⟨_, rfl⟩
  obtain ⟨r, hr⟩ := fin
  refine ⟨r, ((listen_pairW o.keys (order_keyed hp hk1) (by simp; omega)).bind ((PairW.send01 (reads_bools _)).bind
    (PairW.bind (Q0 := fun b => if belowThreshold (numTrue (matched (admit (fun _ => true) subs0 []) o.keys)) subs0.length then .ret .invalid
      else match scanDown (maxFold B (admit (fun _ => true) subs0 []) o.keys (matched (admit (fun _ => true) subs0 []) o.keys)) b B with
        | some j => .ret (.ans (if isMax then j else B - j))
        | none => .fault) (Q1 := fun _ => .ret (Ret.noAns : Ret ℕ)) (PairW.send10 hw) (?_ : PairW _ _ r .noAns [] [])))).cast rfl rfl
      (by simp) (by simp)⟩
  rw [hr]
  exact PairW.ret _ _

/-- C63 for MAX and MIN, server 1: if the operation ends (C39), its view depends on the keys at server 0 only. -/
theorem C63_max_server1 (isMax : Bool) (B : ℕ) (subs0 subs0' subs1 : List (Bytes × List U64)) (rest0 rest0' rest1 : Bytes) (hk0 : Keyed subs0)
    (hk0' : Keyed subs0') (hk1 : Keyed subs1) (hr0 : RowsOk B subs0) (hr0' : RowsOk B subs0') (hr1 : RowsOk B subs1) (hB : B + 1 < 2 ^ 32)
    (hs0 : subs0.length * (B + 1) < 2 ^ 32) (hs0' : subs0'.length * (B + 1) < 2 ^ 32) (hs1 : subs1.length * (B + 1) < 2 ^ 32)
    (ord : Map (List U64) → Map (List U64)) (ho : IsOrder ord) (hkeys : SameKeys (fun _ => true) subs0 subs0')
    (hne : ∃ j, j ≤ B ∧ maxCol subs0 subs1 j ≠ 0#64) (hne' : ∃ j, j ≤ B ∧ maxCol subs0' subs1 j ≠ 0#64) :
    ∃ v, Sees1 (maxOpOp0 isMax B subs0.length (encMaxShares subs0 ++ rest0)) (maxOpOp1 B subs1.length (encMaxShares subs1 ++ rest1) ord) v ∧
      Sees1 (maxOpOp0 isMax B subs0'.length (encMaxShares subs0' ++ rest0')) (maxOpOp1 B subs1.length (encMaxShares subs1 ++ rest1) ord) v := by
  obtain ⟨r, h⟩ := maxOp_view isMax B subs0 subs1 rest0 rest1 hk0 hk1 hr0 hr1 hB hs0 hs1 ord ho (.inr hne)
  obtain ⟨r', h'⟩ := maxOp_view isMax B subs0' subs1 rest0' rest1 hk0' hk1 hr0' hr1 hB hs0' hs1 ord ho (.inr hne')
  have e : matched (admit (fun _ => true) subs0 []) (ord (admit (fun _ => true) subs1 [])).keys =
      matched (admit (fun _ => true) subs0' []) (ord (admit (fun _ => true) subs1 [])).keys := by
    unfold matched
    refine List.map_congr_left fun k _ => ?_
    rw [C34_first_admissible, C34_first_admissible]
    exact hkeys k
  rw [← e] at h'
  exact ⟨_, h.sees1, h'.sees1⟩

/-- The words of an array, as the client's helper indexes them. -/
def wordAt {B : ℕ} (f : Fin (B + 1) → U64) (j : ℕ) : U64 := if h : j < B + 1 then f ⟨j, h⟩ else 0#64

/-- Specification: `M` is the largest (MAX) or smallest (MIN) of the values. -/
def IsExtreme (isMax : Bool) {n : ℕ} (values : Fin n → ℕ) (M : ℕ) : Prop :=
  (∃ i, values i = M) ∧ ∀ i, if isMax then values i ≤ M else M ≤ values i

/-- C63 for MAX and MIN, server 0: honest clients with distinct keys and fixed shares for server 0, and two assignments of values with the same
extreme value. The clients' random words can be rearranged one to one so that server 0 sees the same, and the operation ends for the one if it
ends for the other: server 0 learns the extreme value only. -/
theorem C63_max_server0 (isMax : Bool) (B : ℕ) {n : ℕ} (hB : B + 1 < 2 ^ 32) (hs : n * (B + 1) < 2 ^ 32) (pk : Fin n → Bytes)
    (hinj : Function.Injective pk) (hpk : ∀ i, (pk i).length = pkLength) (share0 : Fin n → ℕ → U64) (values values' : Fin n → ℕ)
    (hv : ∀ i, values i ≤ B) (hv' : ∀ i, values' i ≤ B) (M : ℕ) (hM : IsExtreme isMax values M) (hM' : IsExtreme isMax values' M)
    (l0 l1 : List (Fin n)) (h0 : l0.Perm (List.finRange n)) (h1 : l1.Perm (List.finRange n)) (rest0 rest1 : Bytes)
    (ord : Map (List U64) → Map (List U64)) (ho : IsOrder ord) (hby : ByKeys ord) :
    ∃ e : (Fin n → Fin (B + 1) → U64) ≃ (Fin n → Fin (B + 1) → U64), ∀ rand : Fin n → Fin (B + 1) → U64,
      let P0 := fun (values : Fin n → ℕ) (rand : Fin n → Fin (B + 1) → U64) =>
        maxOpOp0 isMax B n (encMaxShares (l0.map fun i => (pk i, (clientMax isMax B (values i) (wordAt (rand i)) (share0 i)).1)) ++ rest0)
      let P1 := fun (values : Fin n → ℕ) (rand : Fin n → Fin (B + 1) → U64) =>
        maxOpOp1 B n (encMaxShares (l1.map fun i => (pk i, (clientMax isMax B (values i) (wordAt (rand i)) (share0 i)).2)) ++ rest1) ord
      (∃ r, Always (P0 values rand) (P1 values rand) r .noAns) →
        ∃ v, Sees0 (P0 values rand) (P1 values rand) v ∧ Sees0 (P0 values' (e rand)) (P1 values' (e rand)) v := by
  let cs : (Fin n → ℕ) → (Fin n → Fin (B + 1) → U64) → List MaxClient := fun values rand =>
    (List.finRange n).map fun i => ⟨pk i, values i, wordAt (rand i), share0 i⟩
  have hon : ∀ (values : Fin n → ℕ) (rand : Fin n → Fin (B + 1) → U64), (∀ i, values i ≤ B) → HonestMax isMax B (cs values rand)
      (l0.map fun i => (pk i, (clientMax isMax B (values i) (wordAt (rand i)) (share0 i)).1))
      (l1.map fun i => (pk i, (clientMax isMax B (values i) (wordAt (rand i)) (share0 i)).2)) := by
    intro values rand hv
    refine ⟨?_, ?_, ?_, ?_, ?_⟩
    · simp only [cs, List.map_map]
      exact (List.nodup_finRange n).map hinj
    · intro c hc
      obtain ⟨i, -, rfl⟩ := List.mem_map.1 hc
      exact hpk i
    · intro c hc
      obtain ⟨i, -, rfl⟩ := List.mem_map.1 hc
      exact hv i
    · simp only [cs, List.map_map]; exact h0.map _
    · simp only [cs, List.map_map]; exact h1.map _
  have hcol : ∀ (values : Fin n → ℕ) (rand : Fin n → Fin (B + 1) → U64), (∀ i, values i ≤ B) → ∀ j : Fin (B + 1),
      maxCol (l0.map fun i => (pk i, (clientMax isMax B (values i) (wordAt (rand i)) (share0 i)).1))
        (l1.map fun i => (pk i, (clientMax isMax B (values i) (wordAt (rand i)) (share0 i)).2)) j =
        xorSet (Finset.univ.filter fun i => decide ((j : ℕ) ≤ maxPos isMax B (values i)) = true) fun i => rand i j := by
    intro values rand hv j
    rw [(hon values rand hv).col j (by omega), xorSet_filter, colRands]
    simp only [cs, List.filter_map, List.map_map]
    congr 1
    refine List.map_congr_left fun i _ => ?_
    exact dif_pos j.2
  have hset : ∀ j : ℕ, (Finset.univ.filter fun i => decide (j ≤ maxPos isMax B (values i)) = true).Nonempty ↔
      (Finset.univ.filter fun i => decide (j ≤ maxPos isMax B (values' i)) = true).Nonempty := by
    have : ∀ values : Fin n → ℕ, IsExtreme isMax values M → ∀ j : ℕ,
        (Finset.univ.filter fun i => decide (j ≤ maxPos isMax B (values i)) = true).Nonempty ↔ j ≤ maxPos isMax B M := by
      rintro values ⟨⟨i0, hi0⟩, hx⟩ j
      simp only [Finset.Nonempty, Finset.mem_filter, Finset.mem_univ, true_and, decide_eq_true_eq]
      constructor
      · rintro ⟨i, hi⟩
        have := hx i
        unfold maxPos at hi ⊢
        cases isMax <;> simp at this hi ⊢ <;> omega
      · intro h
        exact ⟨i0, by rw [hi0]; exact h⟩
    intro j
    rw [this _ hM, this _ hM']
  choose ej hej using fun j : Fin (B + 1) => xorSet_equiv _ _ (hset j)
  let e : (Fin n → Fin (B + 1) → U64) ≃ (Fin n → Fin (B + 1) → U64) :=
    (Equiv.piComm fun _ _ => U64).trans ((Equiv.piCongrRight ej).trans (Equiv.piComm fun _ _ => U64))
  have he : ∀ rand (j : Fin (B + 1)), (fun i => e rand i j) = ej j fun i => rand i j := fun rand j => rfl
  refine ⟨e, fun rand => ?_⟩
  intro P0 P1 hend
  have len : ∀ l : List (Fin n), l.Perm (List.finRange n) → l.length = n := fun l hl => by rw [hl.length_eq, List.length_finRange]
  have hagg : ∀ j, j ≤ B → maxCol (l0.map fun i => (pk i, (clientMax isMax B (values' i) (wordAt (e rand i)) (share0 i)).1))
      (l1.map fun i => (pk i, (clientMax isMax B (values' i) (wordAt (e rand i)) (share0 i)).2)) j =
      maxCol (l0.map fun i => (pk i, (clientMax isMax B (values i) (wordAt (rand i)) (share0 i)).1))
      (l1.map fun i => (pk i, (clientMax isMax B (values i) (wordAt (rand i)) (share0 i)).2)) j := by
    intro j hj
    have a := hcol values' (e rand) hv' ⟨j, by omega⟩
    have b := hcol values rand hv ⟨j, by omega⟩
    simp only at a b
    rw [a, b, he]
    exact (hej ⟨j, by omega⟩ fun i => rand i ⟨j, by omega⟩).symm
  have hsz : ∀ {γ : Type} (l : List (Fin n)) (f : Fin n → γ), l.Perm (List.finRange n) → (l.map f).length * (B + 1) < 2 ^ 32 := by
    intro γ l f hl
    rw [List.length_map, len l hl]; exact hs
  have hone : ∃ j, j ≤ B ∧ maxCol (l0.map fun i => (pk i, (clientMax isMax B (values i) (wordAt (rand i)) (share0 i)).1))
      (l1.map fun i => (pk i, (clientMax isMax B (values i) (wordAt (rand i)) (share0 i)).2)) j ≠ 0#64 := by
    by_contra hno
    have hz : ∀ j, j ≤ B → _ = 0#64 := fun j hj => not_not.1 fun h => hno ⟨j, hj, h⟩
    have hc := C39_all_cancel_crashes isMax B _ _ rest0 rest1 (hon values rand hv).keyed0 (hon values rand hv).keyed1 (hon values rand hv).rows0
      (hon values rand hv).rows1 hB (hsz l0 _ h0) (hsz l1 _ h1) ord ho (hon values rand hv).all hz
    simp only [List.length_map, len l0 h0, len l1 h1] at hc
    obtain ⟨r, hr⟩ := hend
    exact hc.not_always hr
  have hone' : ∃ j, j ≤ B ∧ maxCol (l0.map fun i => (pk i, (clientMax isMax B (values' i) (wordAt (e rand i)) (share0 i)).1))
      (l1.map fun i => (pk i, (clientMax isMax B (values' i) (wordAt (e rand i)) (share0 i)).2)) j ≠ 0#64 := by
    obtain ⟨j, hj, hne⟩ := hone
    exact ⟨j, hj, by rw [hagg j hj]; exact hne⟩
  obtain ⟨r, hw⟩ := maxOp_view isMax B _ _ rest0 rest1 (hon values rand hv).keyed0 (hon values rand hv).keyed1 (hon values rand hv).rows0
    (hon values rand hv).rows1 hB (hsz l0 _ h0) (hsz l1 _ h1) ord ho (.inr hone)
  obtain ⟨r', hw'⟩ := maxOp_view isMax B _ _ rest0 rest1 (hon values' (e rand) hv').keyed0 (hon values' (e rand) hv').keyed1
    (hon values' (e rand) hv').rows0 (hon values' (e rand) hv').rows1 hB (hsz l0 _ h0) (hsz l1 _ h1) ord ho (.inr hone')
  have hko : (ord (admit (fun _ => true) (l1.map fun i => (pk i, (clientMax isMax B (values' i) (wordAt (e rand i)) (share0 i)).2)) [])).keys =
      (ord (admit (fun _ => true) (l1.map fun i => (pk i, (clientMax isMax B (values i) (wordAt (rand i)) (share0 i)).2)) [])).keys :=
    hby _ _ (admit_keys _ _ _ _ (by simp [List.map_map, Function.comp_def]) rfl)
  have hb : (List.range (B + 1)).map (fun j => maxCol (l0.map fun i => (pk i, (clientMax isMax B (values' i) (wordAt (e rand i)) (share0 i)).1))
      (l1.map fun i => (pk i, (clientMax isMax B (values' i) (wordAt (e rand i)) (share0 i)).2)) j ^^^
      (maxFold B (admit (fun _ => true) (l0.map fun i => (pk i, (clientMax isMax B (values' i) (wordAt (e rand i)) (share0 i)).1)) [])
        (ord (admit (fun _ => true) (l1.map fun i => (pk i, (clientMax isMax B (values i) (wordAt (rand i)) (share0 i)).2)) [])).keys
        (matched (admit (fun _ => true) (l0.map fun i => (pk i, (clientMax isMax B (values' i) (wordAt (e rand i)) (share0 i)).1)) [])
        (ord (admit (fun _ => true) (l1.map fun i => (pk i, (clientMax isMax B (values i) (wordAt (rand i)) (share0 i)).2)) [])).keys)).getD j 0#64) =
      (List.range (B + 1)).map (fun j => maxCol (l0.map fun i => (pk i, (clientMax isMax B (values i) (wordAt (rand i)) (share0 i)).1))
      (l1.map fun i => (pk i, (clientMax isMax B (values i) (wordAt (rand i)) (share0 i)).2)) j ^^^
      (maxFold B (admit (fun _ => true) (l0.map fun i => (pk i, (clientMax isMax B (values i) (wordAt (rand i)) (share0 i)).1)) [])
        (ord (admit (fun _ => true) (l1.map fun i => (pk i, (clientMax isMax B (values i) (wordAt (rand i)) (share0 i)).2)) [])).keys
        (matched (admit (fun _ => true) (l0.map fun i => (pk i, (clientMax isMax B (values i) (wordAt (rand i)) (share0 i)).1)) [])
        (ord (admit (fun _ => true) (l1.map fun i => (pk i, (clientMax isMax B (values i) (wordAt (rand i)) (share0 i)).2)) [])).keys)).getD j 0#64) := by
    refine List.map_congr_left fun j hj => ?_
    rw [hagg j (by simpa [Nat.lt_succ_iff] using List.mem_range.1 hj)]
    rfl
  rw [hko, hb] at hw'
  simp only [List.length_map, len l0 h0, len l1 h1] at hw hw'
  exact ⟨_, hw.sees0, hw'.sees0⟩

/-- The values 5, 0, 1 and the values 2, 5, 5 look the same to server 0 in MAX with the bound 7. -/
example (share0 : Fin 3 → ℕ → U64) :=
  C63_max_server0 true 7 (n := 3) (by decide) (by decide) (fun i : Fin 3 => List.replicate pkLength (BitVec.ofNat 8 i)) (by decide)
    (fun i => List.length_replicate) share0 ![5, 0, 1] ![2, 5, 5] (by decide) (by decide) 5 ⟨by decide, by decide⟩ ⟨by decide, by decide⟩ _ _
    (List.Perm.refl _) (List.reverse_perm _) [] [] List.reverse (fun m => m.reverse_perm) (fun m m' h => by simp [Map.keys] at h ⊢; exact h)

end Verif

import Verif.LemmasViewFreqHide
import Verif.PropsViewXor
import Verif.PropsViewLeak

/-! # Two runs of FREQ -/

namespace Verif

/-- A server's share for a key; zeros if it has none. -/
def shareAt (w : ℕ) (subs : List (Bytes × List Bool)) (k : Bytes) : List Bool := (firstOf anyRow subs k).getD (List.replicate w false)

/-- The order of the keys in a run. -/
def runKeys (ord : Map (List Bool) → Map (List Bool)) (subs1 : List (Bytes × List Bool)) : List Bytes := (ord (admit anyRow subs1 [])).keys

theorem runKeys_spec {ord : Map (List Bool) → Map (List Bool)} (ho : IsOrder ord) (subs1 : List (Bytes × List Bool)) :
    (runKeys ord subs1).Nodup ∧ (runKeys ord subs1).toFinset = keysOf subs1 ∧ (runKeys ord subs1).length = (keysOf subs1).card := by
  have h1 := order_nodup (ho (admit anyRow subs1 []))
  have h2 := order_keys (ho (admit anyRow subs1 []))
  exact ⟨h1, h2, by unfold runKeys; rw [← h2, List.toFinset_card_of_nodup h1]⟩

/-! ### Equal records at server 0 -/

theorem ext_at0 {xs ys : List ℤ} (hl : xs.length = ys.length) (h : ∀ i < xs.length, at0 xs i = at0 ys i) : xs = ys := by
  apply List.ext_getElem hl
  intro i h1 h2
  have := h i h1
  simpa [at0, List.getD_eq_getElem?_getD, List.getElem?_eq_getElem h1, List.getElem?_eq_getElem h2] using this

/-- The keys that count. -/
def counts (total : ℕ) (m : Map (List Bool)) (ks : List Bytes) (v : Bytes → List Bool) (k : Bytes) : Bool :=
  decide ((ks.map fun k => weight (v k)).sum = total) || ((List.lookup k m).isSome && decide (weight (v k) = 1))

theorem freqVerdicts_eq (total : ℕ) (m : Map (List Bool)) (ks : List Bytes) (v : Bytes → List Bool) :
    freqVerdicts total m ks v = ks.map (counts total m ks v) := by
  unfold freqVerdicts counts
  split
  · next h => simp [h]
  · next h => simp [h]

theorem freqSeen0_congr {w total : ℕ} {m : Map (List Bool)} {ks : List Bytes} (hn : ks.Nodup) (hlen : ks.length < intModulus) {a b b' v v' : Bytes → List Bool}
    (hvab : ∀ k, v k = List.zipWith (fun a b => a ^^ b) (a k) (b k)) (hvab' : ∀ k, v' k = List.zipWith (fun a b => a ^^ b) (a k) (b' k))
    (la : ∀ k, (a k).length = w) (lb : ∀ k, (b k).length = w) (lb' : ∀ k, (b' k).length = w) {r0 r1 r1' : List ℤ}
    (hR : FreqRowsOk w ks.length (ks.map a) (ks.map b) r0 r1) (hR' : FreqRowsOk w ks.length (ks.map a) (ks.map b') r0 r1')
    (hw : ∀ k ∈ ks, weight (v k) = weight (v' k))
    (hh : histogram w (ks.toFinset.filter fun k => counts total m ks v k = true) v =
      histogram w (ks.toFinset.filter fun k => counts total m ks v k = true) v') (vs : List Bool) :
    freqSeen0 w total m ks v b vs (pieces w ks.length r1) = freqSeen0 w total m ks v' b' vs (pieces w ks.length r1') := by
  have hws : (ks.map fun k => weight (v k)) = ks.map fun k => weight (v' k) := List.map_congr_left hw
  have hc : ∀ k ∈ ks, counts total m ks v k = counts total m ks v' k := fun k hk => by unfold counts; rw [hws, hw k hk]
  have hV : freqVerdicts total m ks v = freqVerdicts total m ks v' := by
    rw [freqVerdicts_eq, freqVerdicts_eq]; exact List.map_congr_left hc
  have hp : (ks.map b).map parityOf = (ks.map b').map parityOf := by
    rw [List.map_map, List.map_map]
    refine List.map_congr_left fun k hk => ?_
    have e1 := row_parity hvab la lb k
    have e2 := row_parity hvab' la lb' k
    rw [hw k hk, ← e2] at e1
    simpa using e1
  have hs : (pieces w ks.length r1).map modSum = (pieces w ks.length r1').map modSum := by
    refine ext_at0 (by simp [pieces_length]) fun i hi => ?_
    have hi : i < ks.length := by simpa [pieces_length] using hi
    have e1 := row_sums hvab la lb hR i hi
    have e2 := row_sums hvab' la lb' hR' i hi
    have hk : ks.getD i [] ∈ ks := by
      rw [List.getD_eq_getElem?_getD, List.getElem?_eq_getElem hi]; exact List.getElem_mem _
    rw [hw _ hk, ← e2] at e1
    have cn : ∀ r : List ℤ, Canon (at0 ((pieces w ks.length r).map modSum) i) intModulus := by
      intro r
      rw [at0, List.getD_eq_getElem?_getD, List.getElem?_map, List.getElem?_eq_getElem (by rw [pieces_length]; exact hi)]
      exact modSum_canon _
    exact canon_eq_of_cast (cn _) (cn _) (add_left_cancel e1)
  have hacc : accumulate w (pieces w ks.length r1) (freqVerdicts total m ks v) = accumulate w (pieces w ks.length r1') (freqVerdicts total m ks v) := by
    rw [freqVerdicts_eq]
    have e1 := freq_answer hn hlen hR.l0 hR.l1 (row_bits hvab hR) (counts total m ks v)
    have e2 := freq_answer hn hlen hR'.l0 hR'.l1 (row_bits hvab' hR') (counts total m ks v)
    rw [hh, ← e2] at e1
    obtain ⟨a1, -, -⟩ := accumulate_spec (ni := w) (pieces w ks.length r0) (ks.map (counts total m ks v)) (by simp [pieces_length]) (pieces_mem w _ r0 hR.l0)
    obtain ⟨b1, b2, -⟩ := accumulate_spec (ni := w) (pieces w ks.length r1) (ks.map (counts total m ks v)) (by simp [pieces_length]) (pieces_mem w _ r1 hR.l1)
    obtain ⟨c1, c2, -⟩ := accumulate_spec (ni := w) (pieces w ks.length r1') (ks.map (counts total m ks v)) (by simp [pieces_length])
      (pieces_mem w _ r1' hR'.l1)
    apply List.ext_getElem (b1.trans c1.symm)
    intro j h1 h2
    have := congrArg (fun l => l[j]?) e1
    simp only [List.getElem?_zipWith, List.getElem?_eq_getElem h1, List.getElem?_eq_getElem h2,
      List.getElem?_eq_getElem (show j < (accumulate w (pieces w ks.length r0) (ks.map (counts total m ks v))).length by omega), Option.some.injEq] at this
    have := congrArg (fun z : ℤ => (z : ZMod intModulus)) this
    simp only [fmod_cast, Int.cast_add] at this
    exact canon_eq_of_cast (b2 _ (List.getElem_mem _)) (c2 _ (List.getElem_mem _)) (add_left_cancel this)
  unfold freqSeen0
  rw [hws, hp, hs, hV, ← hV, hacc]

/-! ### Injectivity of records -/

theorem reads_inj {α : Type} {r : Rd α} {bs bs' t t' : Bytes} {x x' : α} (h : Reads r bs x) (h' : Reads r bs' x') (e : bs ++ t = bs' ++ t') :
    x = x' ∧ t = t' := by
  have a := h t
  rw [e, h' t'] at a
  have := Option.some.inj a
  exact ⟨(congrArg Prod.fst this).symm, (congrArg Prod.snd this).symm⟩

theorem flatten_inj {α : Type} {k : ℕ} : ∀ {L L' : List (List α)} {t t' : List α}, L.length = L'.length → (∀ l ∈ L, l.length = k) →
    (∀ l ∈ L', l.length = k) → L.flatten ++ t = L'.flatten ++ t' → L = L' ∧ t = t'
  | [], [], _, _, _, _, _, h => ⟨rfl, h⟩
  | [], _ :: _, _, _, h, _, _, _ => by simp at h
  | _ :: _, [], _, _, h, _, _, _ => by simp at h
  | l :: L, l' :: L', t, t', h, h1, h2, e => by
    rw [List.flatten_cons, List.flatten_cons, List.append_assoc, List.append_assoc] at e
    obtain ⟨rfl, e'⟩ := List.append_inj e ((h1 l (List.mem_cons_self ..)).trans (h2 l' (List.mem_cons_self ..)).symm)
    obtain ⟨rfl, e2⟩ := flatten_inj (by simpa using h) (fun l hl => h1 l (List.mem_cons_of_mem _ hl)) (fun l hl => h2 l (List.mem_cons_of_mem _ hl)) e'
    exact ⟨rfl, e2⟩

theorem seenBytes_inj {bs bs' : Bytes} (h : seenBytes bs = seenBytes bs') : bs = bs' := List.map_injective_iff.2 (fun _ _ h => Seen.byte.inj h) h

/-- The part of server 0's record that fixes keys and masked bits. -/
theorem freqSeen0_inj {w total total' : ℕ} {m m' : Map (List Bool)} {ks ks' : List Bytes} {v b v' b' : Bytes → List Bool} {vs vs' : List Bool}
    {R R' : List (List ℤ)} (hl : ks.length < 2 ^ 32) (hl' : ks'.length < 2 ^ 32) (hk : ∀ k ∈ ks, k.length = pkLength)
    (hk' : ∀ k ∈ ks', k.length = pkLength) (hvs : vs.length = ks.length * w) (hvs' : vs'.length = ks'.length * w)
    (h : freqSeen0 w total m ks v b vs R = freqSeen0 w total' m' ks' v' b' vs' R') : ks = ks' ∧ vs = vs' := by
  have key : ∀ ks : List Bytes, seenKeys ks = seenBytes ks.flatten := by
    intro ks
    unfold seenKeys seenBytes
    rw [List.map_flatten, List.flatMap_def]
  have form : ∀ (total : ℕ) (m : Map (List Bool)) (ks : List Bytes) (v b : Bytes → List Bool) (vs : List Bool) (R : List (List ℤ)),
      ∃ t, freqSeen0 w total m ks v b vs R = seenBytes (encSize (BitVec.ofNat 64 ks.length) ++ (ks.flatten ++ (encBools vs ++ t))) := by
    intro total m ks v b vs R
    unfold freqSeen0
    rw [key]
    by_cases hW : (ks.map fun k => weight (v k)).sum = total
    · rw [if_pos hW]
      refine ⟨encBool (parityOf ((ks.map b).map parityOf)) ++ (fmpzBytes (modSum (R.map modSum)) ++
        (accumulate w R (freqVerdicts total m ks v)).flatMap fmpzBytes), ?_⟩
      simp [seenBytes]
    · rw [if_neg hW]
      refine ⟨encBool (parityOf ((ks.map b).map parityOf)) ++ (fmpzBytes (modSum (R.map modSum)) ++ ((encBools ((ks.map b).map parityOf) ++
        (R.map modSum).flatMap fmpzBytes) ++ (accumulate w R (freqVerdicts total m ks v)).flatMap fmpzBytes)), ?_⟩
      simp [seenBytes]
  obtain ⟨t, e⟩ := form total m ks v b vs R
  obtain ⟨t', e'⟩ := form total' m' ks' v' b' vs' R'
  rw [e, e'] at h
  obtain ⟨h1, h2⟩ := reads_inj (reads_size _) (reads_size _) (seenBytes_inj h)
  have h1 := congrArg BitVec.toNat h1
  simp only [BitVec.toNat_ofNat] at h1
  have hlen : ks.length = ks'.length := by omega
  obtain ⟨rfl, h3⟩ := flatten_inj hlen hk hk' h2
  have r1 := reads_bools vs
  have r2 := reads_bools vs'
  rw [hvs'] at r2
  rw [hvs] at r1
  exact ⟨rfl, (reads_inj r1 r2 h3).1⟩

theorem veil_length {T : List DaBit} {x : List Bool} (h : x.length ≤ T.length) : (veil T x).length = x.length := by
  unfold veil maskBits; simp [h]

theorem veil_inj {T : List DaBit} {x x' : List Bool} (hx : x.length ≤ T.length) (hl : x.length = x'.length) (h : veil T x = veil T x') : x = x' := by
  apply List.ext_getElem hl
  intro i h1 h2
  have := congrArg (fun l => l[i]?) h
  unfold veil maskBits at this
  rw [← hl] at this
  simp only [List.getElem?_zipWith, List.getElem?_eq_getElem h1, List.getElem?_eq_getElem h2] at this
  rw [List.getElem?_eq_getElem (by simp; omega)] at this
  simpa using this

/-! ### Honest clients -/

section
variable {n : ℕ} {key : Fin n → Bytes} {w : ℕ} {A : List (Fin n ⊕ Bytes × List Bool)}

theorem shareAt_honest (h : Arrives key A) (f : Fin n → List Bool) (i : Fin n) : shareAt w (fill key A f) (key i) = f i := by
  unfold shareAt; rw [firstOf_honest h i rfl]; rfl

theorem shareAt_other (A : List (Fin n ⊕ Bytes × List Bool)) (f f' : Fin n → List Bool) {k : Bytes} (hk : ∀ i, key i ≠ k) :
    shareAt w (fill key A f) k = shareAt w (fill key A f') k := by
  unfold shareAt; rw [firstOf_other A f f' hk]

theorem keysOf_fill (A : List (Fin n ⊕ Bytes × List Bool)) (f f' : Fin n → List Bool) : keysOf (fill key A f) = keysOf (fill key A f') := by
  unfold keysOf fill
  rw [List.map_map, List.map_map]
  congr 2
  funext a
  rcases a with i | e <;> rfl

theorem key_mem (h : Arrives key A) (f : Fin n → List Bool) (i : Fin n) : key i ∈ keysOf (fill key A f) := by
  rw [← firstOf_any_isSome, firstOf_honest h i rfl]; rfl

theorem lookup_fill (A : List (Fin n ⊕ Bytes × List Bool)) (f f' : Fin n → List Bool) (k : Bytes) :
    (List.lookup k (admit anyRow (fill key A f) [])).isSome = (List.lookup k (admit anyRow (fill key A f') [])).isSome := by
  rw [C34_first_admissible, C34_first_admissible, Bool.eq_iff_iff, firstOf_any_isSome, firstOf_any_isSome, keysOf_fill A f f']

theorem histogram_honest (hinj : Function.Injective key) {G : Finset Bytes} (hG : ∀ i, key i ∈ G) {v v' : Bytes → List Bool}
    (hoff : ∀ k, (∀ i, key i ≠ k) → v k = v' k)
    (hc : ∀ j < w, (Finset.univ.filter fun i => (v (key i)).getD j false = true).card = (Finset.univ.filter fun i => (v' (key i)).getD j false = true).card) :
    histogram w G v = histogram w G v' := by
  unfold histogram
  refine List.map_congr_left fun j hj => ?_
  have hsub : Finset.univ.map ⟨key, hinj⟩ ⊆ G := by
    intro k hk
    obtain ⟨i, -, rfl⟩ := Finset.mem_map.1 hk
    exact hG i
  have form : ∀ v : Bytes → List Bool, (G.filter fun k => (v k).getD j false = true).card =
      (∑ k ∈ G \ Finset.univ.map ⟨key, hinj⟩, if (v k).getD j false = true then 1 else 0) +
      (Finset.univ.filter fun i => (v (key i)).getD j false = true).card := by
    intro v
    rw [Finset.card_filter, ← Finset.sum_sdiff hsub, Finset.sum_map, Finset.card_filter]; rfl
  rw [form v, form v', hc j (List.mem_range.1 hj)]
  congr 2
  refine Finset.sum_congr rfl fun k hk => ?_
  rw [hoff k fun i hi => (Finset.mem_sdiff.1 hk).2 (Finset.mem_map.2 ⟨i, Finset.mem_univ _, hi⟩)]

end

end Verif

import Verif.ModelCorrelated
import Verif.LemmasOt
import Verif.PropsShare
import Verif.PropsNet
import Verif.PropsOt

/-!
# Lemmas on the correlated store and the conversions
-/

namespace Verif

/-- What is used of the modulus. -/
structure GoodMod (p : ℕ) : Prop where
  odd : p % 2 = 1
  big : 2 < p
  small : p < 2 ^ 62

theorem goodModulus : GoodMod intModulus := ⟨by decide, by decide, by decide⟩

/-- A consistent pair of daBits. -/
def DaOk (p : ℕ) (a b : DaBit) : Prop := DaBitPair p a b (a.b2 ^^ b.b2)

/-- A consistent pair of Boolean triples. -/
def TripleOk (a b : BTriple) : Prop := ((a.a != b.a) && (a.b != b.b)) = (a.c != b.c)

theorem mod_toNat {p : ℕ} (hp : GoodMod p) : (BitVec.ofNat 64 p).toNat = p := by
  have := hp.small
  rw [BitVec.toNat_ofNat, Nat.mod_eq_of_lt]; omega

theorem daBp_toNat {p : ℕ} (hp : GoodMod p) (b : Bool) (x : U64) (hx : x.toNat ≤ p) :
    (daBp (BitVec.ofNat 64 p) b x).toNat = ((if b then 1 else 0) + 2 * (p - x.toNat)) % p := by
  have hm := mod_toNat hp
  have := hp.small
  unfold daBp
  rw [BitVec.toNat_umod, hm, BitVec.toNat_add, BitVec.toNat_mul, BitVec.toNat_sub_of_le (by rw [BitVec.le_def, hm]; exact hx), hm]
  have h2 : (2#64 : U64).toNat = 2 := rfl
  rw [h2, Nat.mod_eq_of_lt (a := 2 * _) (by omega), Nat.mod_eq_of_lt (a := _ + _)]
  · cases b <;> rfl
  · cases b <;> simp [b64] <;> omega

theorem dabit_gen_ok {p : ℕ} (hp : GoodMod p) (d : Bool × U64) (b : Bool) :
    DaOk p ⟨((daBp (BitVec.ofNat 64 p) d.1 (BitVec.ofNat 64 p - d.2 % BitVec.ofNat 64 p)).toNat : ℤ), d.1⟩
      ⟨((daBp (BitVec.ofNat 64 p) b (if b then (daPair (BitVec.ofNat 64 p) d).2 else (daPair (BitVec.ofNat 64 p) d).1)).toNat : ℤ), b⟩ := by
  have hm := mod_toNat hp
  have hs := hp.small
  have hbig := hp.big
  obtain ⟨c, raw⟩ := d
  have h0 : (raw % BitVec.ofNat 64 p).toNat = raw.toNat % p := by rw [BitVec.toNat_umod, hm]
  have hlt : raw.toNat % p < p := Nat.mod_lt _ (by omega)
  set r := raw.toNat % p
  have hx0 : (BitVec.ofNat 64 p - raw % BitVec.ofNat 64 p).toNat = p - r := by
    rw [BitVec.toNat_sub_of_le (by rw [BitVec.le_def, hm, h0]; omega), hm, h0]
  have hx1 : (if b = true then (daPair (BitVec.ofNat 64 p) (c, raw)).2 else (daPair (BitVec.ofNat 64 p) (c, raw)).1).toNat =
      (r + if c && b then 1 else 0) % p := by
    cases b
    · simp only [daPair, Bool.false_eq_true, if_false, Bool.and_false, h0]
      rw [Nat.add_zero, Nat.mod_eq_of_lt hlt]
    · simp only [daPair, if_true, Bool.and_true]
      rw [BitVec.toNat_umod, BitVec.toNat_add, h0, hm]
      rw [Nat.mod_eq_of_lt (a := _ + _) (b := 2 ^ 64)]
      · cases c <;> rfl
      · cases c <;> simp [b64] <;> omega
  have hx1lt : (r + if c && b then 1 else 0) % p < p := Nat.mod_lt _ (by omega)
  clear_value r
  unfold DaOk DaBitPair
  refine ⟨rfl, ?_, ?_, ?_⟩
  · simp only
    rw [daBp_toNat hp _ _ (by omega), daBp_toNat hp _ _ (by omega), hx0, hx1]
    rw [← ZMod.intCast_eq_intCast_iff]
    push_cast
    have z : ((p : ℕ) : ZMod p) = 0 := ZMod.natCast_self p
    rw [Nat.cast_sub (by omega : p - r ≤ p), Nat.cast_sub hlt.le, Nat.cast_sub hx1lt.le, ZMod.natCast_mod, z]
    cases b <;> cases c <;> push_cast <;> (simp <;> ring)
  · simp only
    rw [daBp_toNat hp _ _ (by omega)]
    exact ⟨by positivity, by exact_mod_cast Nat.mod_lt _ (by omega)⟩
  · simp only
    rw [daBp_toNat hp _ _ (by omega)]
    exact ⟨by positivity, by exact_mod_cast Nat.mod_lt _ (by omega)⟩

theorem generateDaBit_pair {p : ℕ} (hp : GoodMod p) (ds : List (Bool × U64)) (bs : List Bool) (hn : ds.length = bs.length) :
    ∃ A B, Pair (generateDaBit0 p ds) (generateDaBit1 p bs) A B ∧ A.length = ds.length ∧
      List.Forall₂ (DaOk p) A B ∧ A.map (·.b2) = ds.map (·.1) ∧ B.map (·.b2) = bs := by
  refine ⟨_, _, (Pair.ot01 _ _ _ (by simpa using hn)).bind (Pair.ret _ _), by simp, ?_, by simp, ?_⟩
  · clear * - hn hp
    induction ds generalizing bs with
    | nil => cases bs with
      | nil => exact .nil
      | cons b bs => simp at hn
    | cons d ds ih =>
      cases bs with
      | nil => simp at hn
      | cons b bs =>
        simp only [List.map_cons, otChoose_cons, List.zipWith_cons_cons]
        exact .cons (dabit_gen_ok hp d b) (ih bs (by simpa using hn))
  · clear * - hn
    induction ds generalizing bs with
    | nil => cases bs <;> simp_all
    | cons d ds ih =>
      cases bs with
      | nil => simp at hn
      | cons b bs =>
        simp only [List.map_cons, otChoose_cons, List.zipWith_cons_cons]
        rw [ih bs (by simpa using hn)]

/-! ## The stores in lock-step -/

/-- Both stores have matching entries position by position (hence equal sizes). -/
structure StoresOk (p : ℕ) (s0 s1 : Store) : Prop where
  da : List.Forall₂ (DaOk p) s0.dabits s1.dabits
  tr : List.Forall₂ TripleOk s0.triples s1.triples

/-- The lazy draws of server 0 are in the range `fmpz_randm` guarantees. -/
def GoodRng (p : ℕ) (g : StoreRng) : Prop := ∀ c i, IsDaDraw p (g.lz c i).1 (g.lz c i).2

@[simp] theorem firstN_length {α : Type} (f : ℕ → α) (n : ℕ) : (firstN f n).length = n := by simp [firstN]

theorem forall2_append {α β : Type} {R : α → β → Prop} {a c : List α} {b d : List β} (h : List.Forall₂ R a b)
    (h' : List.Forall₂ R c d) : List.Forall₂ R (a ++ c) (b ++ d) := by
  induction h with
  | nil => exact h'
  | cons h _ ih => exact .cons h ih

theorem fits_of_canon' {p : ℕ} (hp : GoodMod p) {x : ℤ} (h : Canon x p) : Fits x := by
  have := hp.small
  refine ⟨h.1, ?_⟩
  have h2 := h.2
  have : (p : ℤ) < 2 ^ 62 := by exact_mod_cast this
  linarith

theorem addDaBits_pair {p : ℕ} (hp : GoodMod p) (c : StoreCfg) (g0 g1 : StoreRng) (hg : GoodRng p g0) (n : ℕ)
    (s0 s1 : Store) :
    ∃ d0 d1, Pair (addDaBits p c g0 false n s0) (addDaBits p c g1 true n s1)
        ⟨s0.dabits ++ d0, s0.triples, s0.calls + 1⟩ ⟨s1.dabits ++ d1, s1.triples, s1.calls + 1⟩ ∧
      List.Forall₂ (DaOk p) d0 d1 ∧ d0.length = max n c.batch := by
  unfold addDaBits
  set num := if n > c.batch then n else c.batch with hnum
  have hnum' : num = max n c.batch := by rw [hnum]; split <;> omega
  cases hl : c.lazy
  · obtain ⟨A, B, hP, hA, hOk, _⟩ := generateDaBit_pair hp (firstN (g0.da s0.calls) num)
      ((firstN (g1.da s1.calls) num).map (·.1)) (by simp)
    refine ⟨A, B, ?_, hOk, by rw [hA, firstN_length, hnum']⟩
    simp only [Bool.false_eq_true, if_false, if_true]
    exact hP.bind (Pair.ret _ _)
  · set prs := (firstN (g0.lz s0.calls) num).map fun d => makeLocalDaBit p d.1 d.2 with hprs
    have hok : List.Forall₂ (DaOk p) (prs.map (·.1)) (prs.map (·.2)) := by
      rw [List.forall₂_map_left_iff, List.forall₂_map_right_iff, List.forall₂_same]
      intro q hq
      obtain ⟨d, hd, rfl⟩ := List.mem_map.1 hq
      obtain ⟨i, _, rfl⟩ := List.mem_map.1 hd
      have := dabit_local p hp.odd _ _ (hg s0.calls i)
      unfold DaOk
      rw [this.1]; exact this
    have hfit : ∀ d ∈ prs.map (·.2), Fits d.bp := by
      intro d hd
      obtain ⟨q, hq, rfl⟩ := List.mem_map.1 hd
      obtain ⟨d, hd', rfl⟩ := List.mem_map.1 hq
      obtain ⟨i, _, rfl⟩ := List.mem_map.1 hd'
      exact fits_of_canon' hp (dabit_local p hp.odd _ _ (hg s0.calls i)).2.2.2
    obtain ⟨bs, he, hr⟩ := C14_dabits_roundtrip _ hfit
    refine ⟨prs.map (·.1), prs.map (·.2), ?_, hok, by simp [hprs, hnum']⟩
    simp only [if_true, Bool.false_eq_true, if_false]
    rw [← hprs, he]
    show Pair ((Proc.bind (Proc.put bs) _).bind _) _ _ _
    rw [Proc.bind_assoc]
    have hlen : (prs.map (·.2)).length = num := by simp [hprs]
    rw [hlen] at hr
    exact (Pair.send01 hr).bind (Pair.ret _ _)

theorem addBoolTriples_pair (c : StoreCfg) (g0 g1 : StoreRng) (n : ℕ) (s0 s1 : Store) :
    ∃ d0 d1, Pair (addBoolTriples c g0 false n s0) (addBoolTriples c g1 true n s1)
        ⟨s0.dabits, s0.triples ++ d0, s0.calls + 1⟩ ⟨s1.dabits, s1.triples ++ d1, s1.calls + 1⟩ ∧
      List.Forall₂ TripleOk d0 d1 ∧ d0.length = max n (c.batch * c.nbits) := by
  unfold addBoolTriples
  set num := if n > c.batch * c.nbits then n else c.batch * c.nbits with hnum
  have hnum' : num = max n (c.batch * c.nbits) := by rw [hnum]; split <;> omega
  obtain ⟨A, B, hP, hA, hB, hok⟩ := C20_pair (firstN (g0.tr s0.calls) num) (firstN (g1.tr s1.calls) num) (by simp)
  refine ⟨A, B, ?_, ?_, by rw [hA, firstN_length, hnum']⟩
  · simp only [Bool.false_eq_true, if_false, if_true]
    exact hP.bind (Pair.ret _ _)
  · rw [List.forall₂_iff_get]
    exact ⟨by rw [hA, hB], fun i h1 h2 => hok i h1 h2⟩

/-- Outcome of an operation on the daBit queue: the store after it. -/
structure DaStep (p : ℕ) (s0 s1 s0' s1' : Store) (k : ℕ) : Prop where
  ok : StoresOk p s0' s1'
  new : ∃ d0 d1, s0'.dabits = (s0.dabits ++ d0).drop k ∧ s1'.dabits = (s1.dabits ++ d1).drop k ∧
    d0.length = d1.length ∧ k ≤ (s0.dabits ++ d0).length
  tr : s0'.triples = s0.triples ∧ s1'.triples = s1.triples

theorem StoresOk.len {p : ℕ} {s0 s1 : Store} (h : StoresOk p s0 s1) : s0.dabits.length = s1.dabits.length := h.da.length_eq
theorem StoresOk.lenT {p : ℕ} {s0 s1 : Store} (h : StoresOk p s0 s1) : s0.triples.length = s1.triples.length := h.tr.length_eq

section
variable {p : ℕ} (hp : GoodMod p) (c : StoreCfg) (g0 g1 : StoreRng) (hg : GoodRng p g0)
include hp hg

theorem checkDaBits_pair (n : ℕ) (s0 s1 : Store) (h : StoresOk p s0 s1) :
    ∃ s0' s1', Pair (checkDaBits p c g0 false n s0) (checkDaBits p c g1 true n s1) s0' s1' ∧
      StoresOk p s0' s1' ∧ n ≤ s0'.dabits.length ∧
      (∃ d0 d1, s0'.dabits = s0.dabits ++ d0 ∧ s1'.dabits = s1.dabits ++ d1 ∧ d0.length = d1.length) ∧
      s0'.triples = s0.triples ∧ s1'.triples = s1.triples ∧
      (n ≤ s0.dabits.length → s0' = s0 ∧ s1' = s1) := by
  unfold checkDaBits
  rw [← h.len]
  by_cases hlt : s0.dabits.length < n
  · rw [if_pos hlt, if_pos hlt]
    obtain ⟨d0, d1, hP, hok, hl⟩ := addDaBits_pair hp c g0 g1 hg (n - s0.dabits.length) s0 s1
    refine ⟨_, _, hP, ⟨forall2_append h.da hok, h.tr⟩, ?_, ⟨d0, d1, rfl, rfl, hok.length_eq⟩, rfl, rfl, fun h => by omega⟩
    simp only [List.length_append, hl]; omega
  · rw [if_neg hlt, if_neg hlt]
    exact ⟨s0, s1, Pair.ret _ _, h, by omega, ⟨[], [], by simp, by simp, rfl⟩, rfl, rfl, fun _ => ⟨rfl, rfl⟩⟩

/-- Taking `n` daBits that are there. -/
theorem getDaBits_pair (n : ℕ) (s0 s1 : Store) (h : StoresOk p s0 s1) (hn : n ≤ s0.dabits.length) :
    Pair (getDaBits p c g0 false n s0) (getDaBits p c g1 true n s1)
      (s0.dabits.take n, ⟨s0.dabits.drop n, s0.triples, s0.calls⟩)
      (s1.dabits.take n, ⟨s1.dabits.drop n, s1.triples, s1.calls⟩) := by
  induction n generalizing s0 s1 with
  | zero => simpa [getDaBits] using Pair.ret _ _
  | succ n ih =>
    obtain ⟨s0', s1', hP, _, _, _, _, _, hs⟩ := checkDaBits_pair hp c g0 g1 hg 1 s0 s1 h
    obtain ⟨rfl, rfl⟩ := hs (by omega)
    obtain ⟨da0, tr0, c0⟩ := s0'
    obtain ⟨da1, tr1, c1⟩ := s1'
    obtain ⟨hda, htr⟩ := h
    cases hda with
    | nil => simp at hn
    | @cons a b as bs hab habs =>
      simp only [getDaBits]
      have h1 : Pair (getDaBit p c g0 false ⟨a :: as, tr0, c0⟩) (getDaBit p c g1 true ⟨b :: bs, tr1, c1⟩)
          (a, ⟨as, tr0, c0⟩) (b, ⟨bs, tr1, c1⟩) := hP.bind (Pair.ret _ _)
      have h2 := ih ⟨as, tr0, c0⟩ ⟨bs, tr1, c1⟩ ⟨habs, htr⟩ (by simpa using hn)
      exact h1.bind (h2.bind (Pair.ret _ _))

end

theorem checkBoolTriples_pair {p : ℕ} (c : StoreCfg) (g0 g1 : StoreRng) (n : ℕ) (s0 s1 : Store) (h : StoresOk p s0 s1) :
    ∃ s0' s1', Pair (checkBoolTriples c g0 false n s0) (checkBoolTriples c g1 true n s1) s0' s1' ∧
      StoresOk p s0' s1' ∧ n ≤ s0'.triples.length ∧
      (∃ d0 d1, s0'.triples = s0.triples ++ d0 ∧ s1'.triples = s1.triples ++ d1 ∧ d0.length = d1.length) ∧
      s0'.dabits = s0.dabits ∧ s1'.dabits = s1.dabits ∧
      (n ≤ s0.triples.length → s0' = s0 ∧ s1' = s1) := by
  unfold checkBoolTriples
  rw [← h.lenT]
  by_cases hlt : s0.triples.length < n
  · rw [if_pos hlt, if_pos hlt]
    obtain ⟨d0, d1, hP, hok, hl⟩ := addBoolTriples_pair c g0 g1 (n - s0.triples.length) s0 s1
    refine ⟨_, _, hP, ⟨h.da, forall2_append h.tr hok⟩, ?_, ⟨d0, d1, rfl, rfl, hok.length_eq⟩, rfl, rfl, fun h => by omega⟩
    simp only [List.length_append, hl]; omega
  · rw [if_neg hlt, if_neg hlt]
    exact ⟨s0, s1, Pair.ret _ _, h, by omega, ⟨[], [], by simp, by simp, rfl⟩, rfl, rfl, fun _ => ⟨rfl, rfl⟩⟩

theorem getBoolTriples_pair {p : ℕ} (c : StoreCfg) (g0 g1 : StoreRng) (n : ℕ) (s0 s1 : Store) (h : StoresOk p s0 s1)
    (hn : n ≤ s0.triples.length) :
    Pair (getBoolTriples c g0 false n s0) (getBoolTriples c g1 true n s1)
      (s0.triples.take n, ⟨s0.dabits, s0.triples.drop n, s0.calls⟩)
      (s1.triples.take n, ⟨s1.dabits, s1.triples.drop n, s1.calls⟩) := by
  induction n generalizing s0 s1 with
  | zero => simpa [getBoolTriples] using Pair.ret _ _
  | succ n ih =>
    obtain ⟨s0', s1', hP, _, _, _, _, _, hs⟩ := checkBoolTriples_pair c g0 g1 1 s0 s1 h
    obtain ⟨rfl, rfl⟩ := hs (by omega)
    obtain ⟨da0, tr0, c0⟩ := s0'
    obtain ⟨da1, tr1, c1⟩ := s1'
    obtain ⟨hda, htr⟩ := h
    cases htr with
    | nil => simp at hn
    | @cons a b as bs hab habs =>
      simp only [getBoolTriples]
      have h1 : Pair (getBoolTriple c g0 false ⟨da0, a :: as, c0⟩) (getBoolTriple c g1 true ⟨da1, b :: bs, c1⟩)
          (a, ⟨da0, as, c0⟩) (b, ⟨da1, bs, c1⟩) := hP.bind (Pair.ret _ _)
      have h2 := ih ⟨da0, as, c0⟩ ⟨da1, bs, c1⟩ ⟨hda, habs⟩ (by simpa using hn)
      exact h1.bind (h2.bind (Pair.ret _ _))

end Verif

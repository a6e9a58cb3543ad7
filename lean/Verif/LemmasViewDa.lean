import Verif.LemmasViewMask
import Verif.PropsFreq

/-! # What the servers see while daBits are made and used -/

namespace Verif

theorem PairW.map {α β α' β' : Type} {P0 : Proc α} {P1 : Proc β} {a : α} {b : β} {v0 v1 : List Seen} (f : α → α') (g : β → β')
    (h : PairW P0 P1 a b v0 v1) : PairW (P0.bind fun x => .ret (f x)) (P1.bind fun y => .ret (g y)) (f a) (g b) v0 v1 :=
  (h.bind (Q0 := fun x => .ret (f x)) (Q1 := fun y => .ret (g y)) (PairW.ret _ _)).cast rfl rfl (List.append_nil _) (List.append_nil _)

/-! ### Making daBits -/

/-- The pairs of daBits made by server 0 alone (correlated.cpp:33-58, lazy). -/
def lazyPairs (p : ℕ) (g : StoreRng) (calls num : ℕ) : List (DaBit × DaBit) :=
  (firstN (g.lz calls) num).map fun d => makeLocalDaBit p d.1 d.2

/-- The words server 1 receives by oblivious transfer (correlated.cpp:361-375, not lazy). -/
def daWords (p : ℕ) (g0 g1 : StoreRng) (calls0 calls1 num : ℕ) : List U64 :=
  otChoose ((firstN (g0.da calls0) num).map (daPair (BitVec.ofNat 64 p))) ((firstN (g1.da calls1) num).map (·.1))

/-- The daBits added to server 0's queue by one generation of `num`. -/
def daMade0 (p : ℕ) (c : StoreCfg) (g0 : StoreRng) (calls0 num : ℕ) : List DaBit :=
  if c.lazy then (lazyPairs p g0 calls0 num).map (·.1) else
    (firstN (g0.da calls0) num).map fun d => ⟨((daBp (BitVec.ofNat 64 p) d.1 (BitVec.ofNat 64 p - d.2 % BitVec.ofNat 64 p)).toNat : ℤ), d.1⟩

/-- The daBits added to server 1's queue. -/
def daMade1 (p : ℕ) (c : StoreCfg) (g0 g1 : StoreRng) (calls0 calls1 num : ℕ) : List DaBit :=
  if c.lazy then (lazyPairs p g0 calls0 num).map (·.2) else
    List.zipWith (fun b x => ⟨((daBp (BitVec.ofNat 64 p) b x).toNat : ℤ), b⟩) ((firstN (g1.da calls1) num).map (·.1)) (daWords p g0 g1 calls0 calls1 num)

/-- What server 1 sees of the generation; server 0 sees nothing. -/
def daSeen (p : ℕ) (c : StoreCfg) (g0 g1 : StoreRng) (calls0 calls1 num : ℕ) : List Seen :=
  if c.lazy then seenBytes ((encDaBits ((lazyPairs p g0 calls0 num).map (·.2))).getD []) else seenWords (daWords p g0 g1 calls0 calls1 num)

theorem daMade0_length (p : ℕ) (c : StoreCfg) (g0 : StoreRng) (calls0 num : ℕ) : (daMade0 p c g0 calls0 num).length = num := by
  unfold daMade0 lazyPairs; split <;> simp

theorem lazyPairs_ok {p : ℕ} (hp : GoodMod p) {g0 : StoreRng} (hg : GoodRng p g0) (calls num : ℕ) :
    List.Forall₂ (DaOk p) ((lazyPairs p g0 calls num).map (·.1)) ((lazyPairs p g0 calls num).map (·.2)) ∧
    ∀ d ∈ (lazyPairs p g0 calls num).map (·.2), Fits d.bp := by
  constructor
  · rw [List.forall₂_map_left_iff, List.forall₂_map_right_iff, List.forall₂_same]
    intro q hq
    obtain ⟨d, hd, rfl⟩ := List.mem_map.1 hq
    obtain ⟨i, _, rfl⟩ := List.mem_map.1 hd
    have := dabit_local p hp.odd _ _ (hg calls i)
    unfold DaOk
    rw [this.1]; exact this
  · intro d hd
    obtain ⟨q, hq, rfl⟩ := List.mem_map.1 hd
    obtain ⟨d, hd', rfl⟩ := List.mem_map.1 hq
    obtain ⟨i, _, rfl⟩ := List.mem_map.1 hd'
    exact fits_of_canon' hp (dabit_local p hp.odd _ _ (hg calls i)).2.2.2

theorem daMade_ok {p : ℕ} (hp : GoodMod p) (c : StoreCfg) {g0 : StoreRng} (g1 : StoreRng) (hg : GoodRng p g0) (calls0 calls1 num : ℕ) :
    List.Forall₂ (DaOk p) (daMade0 p c g0 calls0 num) (daMade1 p c g0 g1 calls0 calls1 num) := by
  unfold daMade0 daMade1
  split
  · exact (lazyPairs_ok hp hg _ _).1
  · unfold daWords firstN
    generalize List.range num = l
    rw [List.map_map, List.map_map, List.map_map]
    induction l with
    | nil => exact .nil
    | cons i l ih =>
      simp only [List.map_cons, otChoose_cons, List.zipWith_cons_cons]
      exact .cons (dabit_gen_ok hp (g0.da calls0 i) (g1.da calls1 i).1) ih

theorem addDaBits_pairW {p : ℕ} (hp : GoodMod p) (c : StoreCfg) {g0 : StoreRng} (g1 : StoreRng) (hg : GoodRng p g0) (n : ℕ) (s0 s1 : Store) :
    PairW (addDaBits p c g0 false n s0) (addDaBits p c g1 true n s1)
      ⟨s0.dabits ++ daMade0 p c g0 s0.calls (max n c.batch), s0.triples, s0.calls + 1⟩
      ⟨s1.dabits ++ daMade1 p c g0 g1 s0.calls s1.calls (max n c.batch), s1.triples, s1.calls + 1⟩ []
      (daSeen p c g0 g1 s0.calls s1.calls (max n c.batch)) := by
  have hnum : (if n > c.batch then n else c.batch) = max n c.batch := by split <;> omega
  unfold addDaBits daMade0 daMade1 daSeen
  rw [hnum]
  generalize max n c.batch = num
  cases hl : c.lazy
  · simp only [Bool.false_eq_true, if_false, if_true]
    exact PairW.map (fun new => (⟨s0.dabits ++ new, s0.triples, s0.calls + 1⟩ : Store)) (fun new => (⟨s1.dabits ++ new, s1.triples, s1.calls + 1⟩ : Store))
      (PairW.map _ _ (PairW.ot01 false ((firstN (g0.da s0.calls) num).map (daPair (BitVec.ofNat 64 p))) ((firstN (g1.da s1.calls) num).map (·.1))
        (by simp)))
  · obtain ⟨bs, he, hr⟩ := C14_dabits_roundtrip _ (lazyPairs_ok hp hg s0.calls num).2
    have hlen : ((lazyPairs p g0 s0.calls num).map (·.2)).length = num := by simp [lazyPairs]
    rw [hlen] at hr
    simp only [if_true, Bool.false_eq_true, if_false]
    rw [show ((firstN (g0.lz s0.calls) num).map fun d => makeLocalDaBit p d.1 d.2) = lazyPairs p g0 s0.calls num from rfl, he]
    show PairW ((Proc.bind (Proc.put bs) _).bind _) _ _ _ _ _
    rw [Proc.bind_assoc]
    exact PairW.map (fun _ => (⟨s0.dabits ++ (lazyPairs p g0 s0.calls num).map (·.1), s0.triples, s0.calls + 1⟩ : Store))
      (fun new => (⟨s1.dabits ++ new, s1.triples, s1.calls + 1⟩ : Store)) (PairW.send01 hr)

/-! ### The queues when `n` daBits are needed -/

/-- Server 0's queue once it has at least `n`. -/
def stock0 (p : ℕ) (c : StoreCfg) (g0 : StoreRng) (s0 : Store) (n : ℕ) : List DaBit :=
  if s0.dabits.length < n then s0.dabits ++ daMade0 p c g0 s0.calls (max (n - s0.dabits.length) c.batch) else s0.dabits

/-- Server 1's queue. -/
def stock1 (p : ℕ) (c : StoreCfg) (g0 g1 : StoreRng) (s0 s1 : Store) (n : ℕ) : List DaBit :=
  if s1.dabits.length < n then s1.dabits ++ daMade1 p c g0 g1 s0.calls s1.calls (max (n - s1.dabits.length) c.batch) else s1.dabits

/-- What server 1 has seen of it. -/
def stockSeen (p : ℕ) (c : StoreCfg) (g0 g1 : StoreRng) (s0 s1 : Store) (n : ℕ) : List Seen :=
  if s1.dabits.length < n then daSeen p c g0 g1 s0.calls s1.calls (max (n - s1.dabits.length) c.batch) else []

theorem stock_ok {p : ℕ} (hp : GoodMod p) (c : StoreCfg) {g0 : StoreRng} (g1 : StoreRng) (hg : GoodRng p g0) {s0 s1 : Store} (h : StoresOk p s0 s1)
    (n : ℕ) : List.Forall₂ (DaOk p) (stock0 p c g0 s0 n) (stock1 p c g0 g1 s0 s1 n) := by
  unfold stock0 stock1
  rw [← h.len]
  split
  · exact forall2_append h.da (daMade_ok hp c g1 hg ..)
  · exact h.da

theorem stock0_length (p : ℕ) (c : StoreCfg) (g0 : StoreRng) (s0 : Store) (n : ℕ) : n ≤ (stock0 p c g0 s0 n).length := by
  unfold stock0
  split
  · rw [List.length_append, daMade0_length]; omega
  · omega

theorem checkDaBits_pairW {p : ℕ} (hp : GoodMod p) (c : StoreCfg) {g0 : StoreRng} (g1 : StoreRng) (hg : GoodRng p g0) (n : ℕ) {s0 s1 : Store}
    (h : StoresOk p s0 s1) : ∃ c0 c1, PairW (checkDaBits p c g0 false n s0) (checkDaBits p c g1 true n s1)
      ⟨stock0 p c g0 s0 n, s0.triples, c0⟩ ⟨stock1 p c g0 g1 s0 s1 n, s1.triples, c1⟩ [] (stockSeen p c g0 g1 s0 s1 n) := by
  unfold checkDaBits stock0 stock1 stockSeen
  rw [← h.len]
  by_cases hlt : s0.dabits.length < n
  · simp only [if_pos hlt]
    have := addDaBits_pairW hp c g1 hg (n - s0.dabits.length) s0 s1
    exact ⟨_, _, this⟩
  · simp only [if_neg hlt]
    exact ⟨_, _, PairW.ret _ _⟩

theorem getDaBits_pairW {p : ℕ} (c : StoreCfg) (g0 g1 : StoreRng) : ∀ (n : ℕ) (s0 s1 : Store), s0.dabits.length = s1.dabits.length →
    n ≤ s0.dabits.length → PairW (getDaBits p c g0 false n s0) (getDaBits p c g1 true n s1)
      (s0.dabits.take n, ⟨s0.dabits.drop n, s0.triples, s0.calls⟩) (s1.dabits.take n, ⟨s1.dabits.drop n, s1.triples, s1.calls⟩) [] []
  | 0, s0, s1, _, _ => by simpa [getDaBits] using PairW.ret _ _
  | n + 1, ⟨[], tr0, c0⟩, ⟨_, tr1, c1⟩, _, h => by simp at h
  | n + 1, ⟨_ :: _, tr0, c0⟩, ⟨[], tr1, c1⟩, h, _ => by simp at h
  | n + 1, ⟨a :: as, tr0, c0⟩, ⟨b :: bs, tr1, c1⟩, hl, h => by
    have ih := getDaBits_pairW (p := p) c g0 g1 n ⟨as, tr0, c0⟩ ⟨bs, tr1, c1⟩ (by simpa using hl) (by simpa using h)
    have e : ∀ (sv : Bool) (g : StoreRng) (t : DaBit) (ts : List DaBit) (tr : List BTriple) (k : ℕ),
        getDaBits p c g sv (n + 1) ⟨t :: ts, tr, k⟩ = (getDaBits p c g sv n ⟨ts, tr, k⟩).bind fun b => .ret (t :: b.1, b.2) := by
      intro sv g t ts tr k
      rw [getDaBits, getDaBit, checkDaBits, if_neg (by simp)]; rfl
    rw [e, e]
    exact ih.bind (w0 := []) (w1 := []) (PairW.ret _ _)

/-- The conversion of the bits `x` with the daBits `T` when the other server has sent `v`. -/
def convWith (p : ℕ) (sv : Bool) (T : List DaBit) (x v : List Bool) : List ℤ :=
  List.zipWith (convBit p sv) (T.map (·.bp)) (maskBits (maskBits x (T.map (·.b2))) v)

/-- The masked bits. -/
def veil (T : List DaBit) (x : List Bool) : List Bool := maskBits x ((T.take x.length).map (·.b2))

/-- The results of the conversion at the two servers. -/
def converted0 (p : ℕ) (T0 T1 : List DaBit) (x0 x1 : List Bool) : List ℤ := convWith p false (T0.take x0.length) x0 (veil T1 x1)
def converted1 (p : ℕ) (T0 T1 : List DaBit) (x0 x1 : List Bool) : List ℤ := convWith p true (T1.take x1.length) x1 (veil T0 x0)

theorem b2aSingle_pairW {p : ℕ} (hp : GoodMod p) (c : StoreCfg) {g0 : StoreRng} (g1 : StoreRng) (hg : GoodRng p g0)
    {x0 x1 : List Bool} (hx : x0.length = x1.length) {s0 s1 : Store} (h : StoresOk p s0 s1) {T0 T1 : List DaBit}
    (hT0 : T0 = stock0 p c g0 s0 x0.length) (hT1 : T1 = stock1 p c g0 g1 s0 s1 x0.length) :
    ∃ s0' s1', PairW (b2aSingle p c g0 false x0 s0) (b2aSingle p c g1 true x1 s1) (converted0 p T0 T1 x0 x1, s0') (converted1 p T0 T1 x0 x1, s1')
      (seenBytes (encBools (veil T1 x1))) (stockSeen p c g0 g1 s0 s1 x0.length ++ seenBytes (encBools (veil T0 x0))) := by
  obtain ⟨c0, c1, hP⟩ := checkDaBits_pairW hp c g1 hg x0.length h
  have hok := stock_ok hp c g1 hg h x0.length
  have hlen := stock0_length p c g0 s0 x0.length
  rw [← hT0] at hP hok hlen
  rw [← hT1] at hP hok
  have hlen1 : x1.length ≤ T1.length := by rw [← hok.length_eq, ← hx]; exact hlen
  have hG := getDaBits_pairW (p := p) c g0 g1 x0.length ⟨T0, s0.triples, c0⟩ ⟨T1, s1.triples, c1⟩ hok.length_eq hlen
  have hv0 : (veil T0 x0).length = x0.length := by
    rw [veil, maskBits_length]; simpa using hlen
  have hv1 : (veil T1 x1).length = x0.length := by
    rw [veil, maskBits_length, hx]; simpa using hlen1
  have hr0 := reads_bools (veil T1 x1)
  have hr1 := reads_bools (veil T0 x0)
  rw [hv1] at hr0
  rw [hv0] at hr1
  have e1 : veil T1 x1 = maskBits x1 ((T1.take x0.length).map (·.b2)) := by rw [veil, hx]
  refine ⟨⟨T0.drop x0.length, s0.triples, c0⟩, ⟨T1.drop x0.length, s1.triples, c1⟩, ?_⟩
  have e2 : converted1 p T0 T1 x0 x1 = convWith p true (T1.take x0.length) x1 (veil T0 x0) := by rw [converted1, hx]
  unfold b2aSingle
  rw [← hx, e1, e2]
  rw [e1] at hr0
  have hfin := PairW.map (fun v => (List.zipWith (convBit p false) ((T0.take x0.length).map (·.bp)) (maskBits (maskBits x0 ((T0.take x0.length).map (·.b2))) v),
      (⟨T0.drop x0.length, s0.triples, c0⟩ : Store)))
    (fun v => (List.zipWith (convBit p true) ((T1.take x0.length).map (·.bp)) (maskBits (maskBits x1 ((T1.take x0.length).map (·.b2))) v),
      (⟨T1.drop x0.length, s1.triples, c1⟩ : Store))) (PairW.exch hr0 hr1)
  refine (hP.bind (hG.bind (hfin.cast ?_ rfl rfl rfl))).cast rfl rfl rfl rfl
  rw [converted0, convWith, e1]

end Verif

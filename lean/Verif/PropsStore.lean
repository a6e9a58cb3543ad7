import Verif.PropsAdder

/-!
# C25: the two stores over a whole history of operations
-/

namespace Verif

/-- What an operation of one server asks for. -/
inductive StoreOp where
  | update
  | convertBits (x : List Bool)
  | convertInts (widths x : List ℕ)
  | multiply (x y : List Bool)
  | add (rows : List (List Bool × List Bool))

/-- Run one operation and keep the store (server.cpp:1495-1503 for `update`; the others as called there). -/
def StoreOp.run (p : ℕ) (c : StoreCfg) (g : StoreRng) (sv : Bool) (s : Store) : StoreOp → Proc Store
  | update => maybeUpdate p c g sv s
  | convertBits x => (b2aSingle p c g sv x s).bind fun a => .ret a.2
  | convertInts ws x => (b2aMulti p c g sv ws x s).bind fun a => .ret a.2
  | multiply x y => (multiplyBoolShares c g sv x y s).bind fun a => .ret a.2
  | add rows => (addBinaryShares c g sv rows s).bind fun a => .ret a.2

/-- A history. -/
def runOps (p : ℕ) (c : StoreCfg) (g : StoreRng) (sv : Bool) : List StoreOp → Store → Proc Store
  | [], s => .ret s
  | o :: os, s => (o.run p c g sv s).bind fun s => runOps p c g sv os s

/-- The two servers make the same call, on their own shares. -/
inductive SameOp : StoreOp → StoreOp → Prop where
  | update : SameOp .update .update
  | convertBits (x0 x1 : List Bool) (h : x0.length = x1.length) : SameOp (.convertBits x0) (.convertBits x1)
  | convertInts (ws x0 x1 : List ℕ) (h0 : x0.length = ws.length) (h1 : x1.length = ws.length) (hw : ∀ w ∈ ws, w ≤ 31) :
      SameOp (.convertInts ws x0) (.convertInts ws x1)
  | multiply (x0 x1 y0 y1 : List Bool) (hx : x0.length = x1.length) (hy0 : y0.length = x0.length) (hy1 : y1.length = x0.length) :
      SameOp (.multiply x0 y0) (.multiply x1 y1)
  | add (A B : List (List Bool × List Bool)) (h : List.Forall₂ SameShape A B) : SameOp (.add A) (.add B)

/-- daBits an operation uses up. -/
def StoreOp.needDa : StoreOp → ℕ
  | convertBits x => x.length
  | convertInts ws _ => ws.sum
  | _ => 0

/-- Triples an operation uses up. -/
def StoreOp.needTr : StoreOp → ℕ
  | multiply x _ => x.length
  | add rows => (rows.map (·.1.length)).sum
  | _ => 0

/-- Effect on the two queues: some new entries are appended (equally many on both sides), then exactly `k` daBits and `l`
triples are taken from the front. -/
structure StoreStep (p : ℕ) (s0 s1 s0' s1' : Store) (k l : ℕ) : Prop where
  ok : StoresOk p s0' s1'
  da : ∃ d0 d1, s0'.dabits = (s0.dabits ++ d0).drop k ∧ s1'.dabits = (s1.dabits ++ d1).drop k ∧
    d0.length = d1.length ∧ k ≤ (s0.dabits ++ d0).length
  tr : ∃ d0 d1, s0'.triples = (s0.triples ++ d0).drop l ∧ s1'.triples = (s1.triples ++ d1).drop l ∧
    d0.length = d1.length ∧ l ≤ (s0.triples ++ d0).length

theorem queue_trans {α : Type} {a b c : List α} {d e : List α} {k l : ℕ} (h : b = (a ++ d).drop k) (h' : c = (b ++ e).drop l)
    (hk : k ≤ (a ++ d).length) : c = (a ++ (d ++ e)).drop (k + l) := by
  rw [h', h, ← List.drop_append_of_le_length hk, List.drop_drop, List.append_assoc]

theorem StoreStep.trans {p : ℕ} {s0 s1 t0 t1 u0 u1 : Store} {k l k' l' : ℕ} (hs : StoresOk p s0 s1)
    (h : StoreStep p s0 s1 t0 t1 k l) (h' : StoreStep p t0 t1 u0 u1 k' l') : StoreStep p s0 s1 u0 u1 (k + k') (l + l') := by
  refine ⟨h'.ok, ?_, ?_⟩
  · obtain ⟨d0, d1, e0, e1, hd, hk⟩ := h.da
    obtain ⟨f0, f1, e0', e1', hf, hl⟩ := h'.da
    have hk1 : k ≤ (s1.dabits ++ d1).length := by
      rw [List.length_append, ← hd, ← hs.len, ← List.length_append]; exact hk
    refine ⟨d0 ++ f0, d1 ++ f1, queue_trans e0 e0' hk, queue_trans e1 e1' hk1, by simp [hd, hf], ?_⟩
    rw [e0] at hl
    simp only [List.length_append, List.length_drop] at hl hk ⊢
    omega
  · obtain ⟨d0, d1, e0, e1, hd, hk⟩ := h.tr
    obtain ⟨f0, f1, e0', e1', hf, hl⟩ := h'.tr
    have hk1 : l ≤ (s1.triples ++ d1).length := by
      rw [List.length_append, ← hd, ← hs.lenT, ← List.length_append]; exact hk
    refine ⟨d0 ++ f0, d1 ++ f1, queue_trans e0 e0' hk, queue_trans e1 e1' hk1, by simp [hd, hf], ?_⟩
    rw [e0] at hl
    simp only [List.length_append, List.length_drop] at hl hk ⊢
    omega

theorem DaStep.toStore {p : ℕ} {s0 s1 t0 t1 : Store} {k : ℕ} (h : DaStep p s0 s1 t0 t1 k) : StoreStep p s0 s1 t0 t1 k 0 :=
  ⟨h.ok, h.new, [], [], by simp [h.tr.1], by simp [h.tr.2], rfl, by simp⟩

theorem TrStep.toStore {p : ℕ} {s0 s1 t0 t1 : Store} {k : ℕ} (h : TrStep p s0 s1 t0 t1 k) : StoreStep p s0 s1 t0 t1 0 k :=
  ⟨h.ok, ⟨[], [], by simp [h.da.1], by simp [h.da.2], rfl, by simp⟩, h.new⟩

theorem maybeUpdate_pair {p : ℕ} (hp : GoodMod p) (c : StoreCfg) (g0 g1 : StoreRng) (hg : GoodRng p g0) (s0 s1 : Store)
    (h : StoresOk p s0 s1) :
    ∃ s0' s1', Pair (maybeUpdate p c g0 false s0) (maybeUpdate p c g1 true s1) s0' s1' ∧ StoreStep p s0 s1 s0' s1' 0 0 := by
  unfold maybeUpdate
  rw [← h.len]
  dsimp only
  generalize 2 * (if s0.dabits.length < c.batch * c.nbits / 2 then 1 else 0) * c.nbits * c.batch = n
  split
  · obtain ⟨d0, d1, hP, hok, _⟩ := addDaBits_pair hp c g0 g1 hg n s0 s1
    exact ⟨_, _, hP, ⟨forall2_append h.da hok, h.tr⟩, ⟨d0, d1, by simp, by simp, hok.length_eq, by simp⟩,
      ⟨[], [], by simp, by simp, rfl, by simp⟩⟩
  · exact ⟨s0, s1, Pair.ret _ _, h, ⟨[], [], by simp, by simp, rfl, by simp⟩, ⟨[], [], by simp, by simp, rfl, by simp⟩⟩

theorem op_pair {p : ℕ} (hp : GoodMod p) (c : StoreCfg) (g0 g1 : StoreRng) (hg : GoodRng p g0) {o0 o1 : StoreOp}
    (ho : SameOp o0 o1) (s0 s1 : Store) (h : StoresOk p s0 s1) :
    ∃ s0' s1', Pair (o0.run p c g0 false s0) (o1.run p c g1 true s1) s0' s1' ∧
      StoreStep p s0 s1 s0' s1' o0.needDa o0.needTr := by
  cases ho with
  | update => exact maybeUpdate_pair hp c g0 g1 hg s0 s1 h
  | convertBits x0 x1 hx =>
    obtain ⟨_, _, s0', s1', hP, _, _, _, _, _, st⟩ := b2aSingle_pair hp c g0 g1 hg x0 x1 hx s0 s1 h
    exact ⟨s0', s1', hP.bind (Pair.ret _ _), st.toStore⟩
  | convertInts ws x0 x1 h0 h1 hw =>
    obtain ⟨_, _, s0', s1', hP, _, _, _, _, _, st⟩ := b2aMulti_pair hp c g0 g1 hg ws x0 x1 h0 h1 hw s0 s1 h
    exact ⟨s0', s1', hP.bind (Pair.ret _ _), st.toStore⟩
  | multiply x0 x1 y0 y1 hx hy0 hy1 =>
    obtain ⟨_, _, s0', s1', hP, _, _, _, st⟩ := multiply_pair c g0 g1 x0 x1 y0 y1 hx hy0 hy1 s0 s1 h
    exact ⟨s0', s1', hP.bind (Pair.ret _ _), st.toStore⟩
  | add A B hs =>
    obtain ⟨_, _, s0', s1', hP, _, _, _, st⟩ := add_pair c g0 g1 A B hs s0 s1 h
    exact ⟨s0', s1', hP.bind (Pair.ret _ _), st.toStore⟩

theorem ops_pair {p : ℕ} (hp : GoodMod p) (c : StoreCfg) (g0 g1 : StoreRng) (hg : GoodRng p g0) {os0 os1 : List StoreOp}
    (ho : List.Forall₂ SameOp os0 os1) (s0 s1 : Store) (h : StoresOk p s0 s1) :
    ∃ s0' s1', Pair (runOps p c g0 false os0 s0) (runOps p c g1 true os1 s1) s0' s1' ∧
      StoreStep p s0 s1 s0' s1' (os0.map StoreOp.needDa).sum (os0.map StoreOp.needTr).sum := by
  induction ho generalizing s0 s1 with
  | nil => exact ⟨s0, s1, Pair.ret _ _, h, ⟨[], [], by simp, by simp, rfl, by simp⟩, ⟨[], [], by simp, by simp, rfl, by simp⟩⟩
  | cons ho _ ih =>
    obtain ⟨t0, t1, hP, st⟩ := op_pair hp c g0 g1 hg ho s0 s1 h
    obtain ⟨u0, u1, hQ, st'⟩ := ih t0 t1 st.ok
    exact ⟨u0, u1, hP.bind hQ, by simpa using StoreStep.trans h st st'⟩

/-- C25. For every history of the same calls on both servers, every schedule, both generation modes, every batch size and
all draws: the history runs to the end on both sides (no pop on an empty queue, no deadlock); at the end the stores match
entry by entry; on each side the final queue is the initial queue with the generated entries appended and exactly as many
entries as the calls asked for taken off the front, so no entry serves twice. -/
theorem C25_stores_in_lockstep (c : StoreCfg) (g0 g1 : StoreRng) (hg : GoodRng intModulus g0) (os0 os1 : List StoreOp)
    (ho : List.Forall₂ SameOp os0 os1) (s0 s1 : Store) (h : StoresOk intModulus s0 s1) :
    ∃ s0' s1', Always (runOps intModulus c g0 false os0 s0) (runOps intModulus c g1 true os1 s1) s0' s1' ∧
      StoreStep intModulus s0 s1 s0' s1' (os0.map StoreOp.needDa).sum (os0.map StoreOp.needTr).sum :=
  let ⟨s0', s1', hP, h⟩ := ops_pair goodModulus c g0 g1 hg ho s0 s1 h
  ⟨s0', s1', hP.always, h⟩

/-- A history of five calls from empty stores meets the hypotheses. -/
example : ∃ s0' s1', Always
    (runOps intModulus ⟨4, 2, true⟩ exampleRng false
      [.update, .convertBits [true, false], .convertInts [3] [5], .multiply [true] [false], .add [([true], [true])]] ⟨[], [], 0⟩)
    (runOps intModulus ⟨4, 2, true⟩ exampleRng true
      [.update, .convertBits [true, true], .convertInts [3] [6], .multiply [true] [true], .add [([false], [true])]] ⟨[], [], 0⟩)
    s0' s1' ∧ StoreStep intModulus ⟨[], [], 0⟩ ⟨[], [], 0⟩ s0' s1' 5 2 :=
  C25_stores_in_lockstep _ _ _ exampleRng_good
    [.update, .convertBits [true, false], .convertInts [3] [5], .multiply [true] [false], .add [([true], [true])]]
    [.update, .convertBits [true, true], .convertInts [3] [6], .multiply [true] [true], .add [([false], [true])]]
    (.cons .update (.cons (.convertBits _ _ rfl) (.cons (.convertInts _ _ _ rfl rfl (by decide))
      (.cons (.multiply _ _ _ _ rfl rfl rfl) (.cons (.add _ _ (.cons ⟨rfl, rfl, rfl⟩ .nil)) .nil))))) _ _ (emptyStoresOk _)

end Verif

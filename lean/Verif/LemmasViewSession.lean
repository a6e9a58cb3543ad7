import Verif.PropsViewXor
import Verif.LemmasViewDa
import Verif.PropsStray
import Verif.PropsAfterFreq

/-! # Records of whole sessions -/

namespace Verif

variable {α β : Type}

/-- Every run is also a run with a record. -/
theorem steps_recorded {γ δ : Type} (k0 : α × List Seen → Proc γ) (k1 : β × List Seen → Proc δ) {s t : Sys α β} (h : Steps s t) (w0 w1 : List Seen) :
    ∃ x0 x1, Steps ⟨s.p0.watch.bind fun r => k0 (r.1, w0 ++ r.2), s.p1.watch.bind fun r => k1 (r.1, w1 ++ r.2), s.q01, s.q10⟩
      ⟨t.p0.watch.bind fun r => k0 (r.1, x0 ++ r.2), t.p1.watch.bind fun r => k1 (r.1, x1 ++ r.2), t.q01, t.q10⟩ := by
  obtain ⟨n, h⟩ := h
  induction h generalizing w0 w1 with
  | refl s => exact ⟨w0, w1, ⟨0, .refl _⟩⟩
  | head hs _ ih =>
    have go : ∀ {u v w : Sys γ δ}, Step u v → Steps v w → Steps u w := fun a ⟨n, b⟩ => ⟨n + 1, .head a b⟩
    have asc : ∀ {τ ρ : Type} (P : Proc (τ × List Seen)) (w v : List Seen) (k : τ × List Seen → Proc ρ),
        ((P.bind fun r => (.ret (r.1, v ++ r.2) : Proc _)).bind fun r => k (r.1, w ++ r.2)) = P.bind fun r => k (r.1, w ++ v ++ r.2) := by
      intro τ ρ P w v k
      rw [Proc.bind_assoc]
      congr 1; funext r
      show k _ = k _
      rw [List.append_assoc]
    cases hs with
    | send0 bs k p1 a b =>
      obtain ⟨x0, x1, h⟩ := ih w0 w1
      exact ⟨x0, x1, go (.send0 _ _ _ _ _) h⟩
    | send1 bs p0 k a b =>
      obtain ⟨x0, x1, h⟩ := ih w0 w1
      exact ⟨x0, x1, go (.send1 _ _ _ _ _) h⟩
    | recv0 n k p1 a b hl =>
      obtain ⟨x0, x1, h⟩ := ih (w0 ++ seenBytes (b.take n)) w1
      refine ⟨x0, x1, go (.recv0 n (fun bs => ((k bs).watch.bind fun r => .ret (r.1, seenBytes bs ++ r.2)).bind fun r => k0 (r.1, w0 ++ r.2)) _ a b hl) ?_⟩
      rw [asc]; exact h
    | recv1 n p0 k a b hl =>
      obtain ⟨x0, x1, h⟩ := ih w0 (w1 ++ seenBytes (a.take n))
      refine ⟨x0, x1, go (.recv1 n _ (fun bs => ((k bs).watch.bind fun r => .ret (r.1, seenBytes bs ++ r.2)).bind fun r => k1 (r.1, w1 ++ r.2)) a b hl) ?_⟩
      rw [asc]; exact h
    | ot01 ch ps cs p0 k a b hl =>
      obtain ⟨x0, x1, h⟩ := ih w0 (w1 ++ seenWords (otChoose ps cs))
      refine ⟨x0, x1, go (.ot01 ch ps cs _ (fun ws => ((k ws).watch.bind fun r => .ret (r.1, seenWords ws ++ r.2)).bind fun r => k1 (r.1, w1 ++ r.2))
        a b hl) ?_⟩
      rw [asc]; exact h
    | ot10 ch ps cs k p1 a b hl =>
      obtain ⟨x0, x1, h⟩ := ih (w0 ++ seenWords (otChoose ps cs)) w1
      refine ⟨x0, x1, go (.ot10 ch ps cs (fun ws => ((k ws).watch.bind fun r => .ret (r.1, seenWords ws ++ r.2)).bind fun r => k0 (r.1, w0 ++ r.2)) _
        a b hl) ?_⟩
      rw [asc]; exact h

/-- Two programs that end have records. -/
theorem Pair.recorded {P0 : Proc α} {P1 : Proc β} {a : α} {b : β} (h : Pair P0 P1 a b) : ∃ v0 v1, PairW P0 P1 a b v0 v1 := by
  have h1 := h _ _ .ret .ret
  rw [Proc.bind_ret, Proc.bind_ret] at h1
  obtain ⟨v0, v1, h2⟩ := steps_recorded .ret .ret h1 [] []
  simp only [List.nil_append] at h2
  have e : ∀ {τ : Type} (P : Proc (τ × List Seen)), (P.bind fun r => (.ret (r.1, r.2) : Proc _)) = P := fun P => Proc.bind_ret P
  rw [e, e] at h2
  refine ⟨v0, v1, fun γ δ k0 k1 => ?_⟩
  have h3 := h2.under k0 k1
  simpa only [Proc.watch, Proc.bind, List.append_nil] using h3

/-! ## One query -/

/-- The draws used as masks by the sums: one word per submission in BIT_SUM (ot.cpp:102-112), one per submission and bit in INT_SUM. -/
structure Masks where
  bit : ℕ → U64
  word : ℕ → ℕ → ℕ → U64

/-- A change of the masks. -/
structure Shift where
  bit : ℕ → U64
  word : ℕ → ℕ → U64

/-- The masks, each changed by a constant. -/
def Masks.shift (m : Masks) (d : Shift) : Masks := ⟨fun i => m.bit i + d.bit i, fun i j k => m.word i j k + d.word i k⟩

/-- The connection with these masks drawn. -/
def Env.masked (e : Env) (m : Masks) : Env := { e with rawBit := m.bit, raw := m.word }

/-- The operations without field arithmetic. -/
def Batch.Plain : Batch → Prop
  | .idle _ | .bitSum _ _ | .intSum _ _ | .xor _ _ _ | .max _ _ _ _ => True
  | _ => False

/-- The keys server 0 gets. -/
def seenAnnounce (ks : List Bytes) : List Seen := seenBytes (encSize (BitVec.ofNat 64 ks.length)) ++ seenKeys ks

/-- What reaches server 0 in a query. -/
def Batch.seen0 (nbits : ℕ) (e0 : Env) (ord : {α : Type} → Map α → Map α) : Batch → List Seen
  | .bitSum a b => seenAnnounce (ord (admit (fun _ => true) b [])).keys ++ seenBytes (encU64 (BitVec.ofNat 64 (bitCount a b) -
      (bitRows (admit (fun _ => true) a []) e0.junkBit e0.rawBit (ord (admit (fun _ => true) b [])).keys).foldl (bitAcc 0#64) 0#64))
  | .intSum a b => seenAnnounce (ord (admit (belowBits nbits) b [])).keys ++ seenBytes (encU64 (BitVec.ofNat 64 (intTotal nbits a b) -
      sumFirst ((intRows (admit (belowBits nbits) a []) e0.junkWord e0.raw (ord (admit (belowBits nbits) b [])).keys).map fun r =>
        (senderRow 0#64 [nbits] r).2)))
  | .xor _ a b => seenAnnounce (ord (admit (fun _ => true) b [])).keys ++ seenBytes (encU64 (xorAgg a b ^^^
      xorFold (admit (fun _ => true) a []) (ord (admit (fun _ => true) b [])).keys (matched (admit (fun _ => true) a []) (ord (admit (fun _ => true) b [])).keys)))
  | .max _ B a b => seenAnnounce (ord (admit (fun _ => true) b [])).keys ++ seenBytes (encWords ((List.range (B + 1)).map fun j => maxCol a b j ^^^
      (maxFold B (admit (fun _ => true) a []) (ord (admit (fun _ => true) b [])).keys
        (matched (admit (fun _ => true) a []) (ord (admit (fun _ => true) b [])).keys)).getD j 0#64))
  | _ => []

/-- What reaches server 1 in a query. -/
def Batch.seen1 (nbits : ℕ) (e0 : Env) (ord : {α : Type} → Map α → Map α) : Batch → List Seen
  | .bitSum a b => seenWords (otChoose ((bitRows (admit (fun _ => true) a []) e0.junkBit e0.rawBit (ord (admit (fun _ => true) b [])).keys).map
      (bitPair 0#64)) ((ord (admit (fun _ => true) b [])).map (·.2)))
  | .intSum a b => seenWords (otChoose ((intRows (admit (belowBits nbits) a []) e0.junkWord e0.raw (ord (admit (belowBits nbits) b [])).keys).flatMap
      fun r => (senderRow 0#64 [nbits] r).1) (((ord (admit (belowBits nbits) b [])).map fun e => [e.2]).flatMap fun y => rowBits y [nbits]))
  | .xor _ a b | .max _ _ a b => seenBytes (encBools (matched (admit (fun _ => true) a []) (ord (admit (fun _ => true) b [])).keys))
  | _ => []

theorem dispatch_view (c : StoreCfg) (g0 g1 : StoreRng) {nbits : ℕ} (coef : ℕ → ℤ) {b : Batch} (hb : b.Plain) {e0 e1 : Env}
    (h : RoundOk nbits (b, e0, e1)) (s0 s1 : Srv) : ∃ a, PairW (dispatch0 c g0 nbits coef e0 s0) (dispatch1 c g1 nbits coef e1 s1)
      (a, s0) (b.quiet, s1) (b.seen0 nbits e0 e1.ord) (b.seen1 nbits e0 e1.ord) := by
  have ha := h.arrives
  have hk := h.ok
  have ho := h.ord
  dsimp only at ha hk ho
  unfold dispatch0 dispatch1
  cases b with
  | idle t =>
    obtain ⟨n0, n1, r0, r1, o0, o1⟩ := ha
    obtain ⟨m0, -, q0, k0⟩ := o0.run
    obtain ⟨m1, -, q1, k1⟩ := o1.run
    simp only [Batch.Ok, List.mem_cons, List.not_mem_nil, or_false, not_or] at hk
    obtain ⟨h1, h2, h3, h4, h5, h6, h7, h8, h9, h10⟩ := hk
    simp only [q0, q1, Proc.ofOption, Proc.bind, h1, h2, h3, h4, h5, h6, h7, h8, h9, h10, if_false]
    exact ⟨_, PairW.ret _ _⟩
  | bitSum a b =>
    obtain ⟨r0, r1, o0, o1⟩ := ha
    obtain ⟨m0, -, q0, k0⟩ := o0.run
    obtain ⟨m1, -, q1, k1⟩ := o1.run
    simp only [q0, q1, Proc.ofOption, Proc.bind, k0, k1, if_true]
    obtain ⟨r, hv⟩ := bitSum_view a b r0 r1 hk.1 hk.2 o1.1 e1.ord (ho _) e0.junkBit e0.rawBit
    exact ⟨_, hv.map (fun r => (Answer.word r, s0)) fun r => (Answer.word r, s1)⟩
  | intSum a b =>
    obtain ⟨r0, r1, o0, o1⟩ := ha
    obtain ⟨m0, -, q0, k0⟩ := o0.run
    obtain ⟨m1, -, q1, k1⟩ := o1.run
    simp only [q0, q1, Proc.ofOption, Proc.bind, k0, k1, if_true]
    obtain ⟨r, hv⟩ := intSum_view nbits hk.2.2 a b r0 r1 hk.1 hk.2.1 o1.1 e1.ord (ho _) e0.junkWord e0.raw
    exact ⟨_, hv.map (fun r => (Answer.word r, s0)) fun r => (Answer.word r, s1)⟩
  | xor t a b =>
    obtain ⟨r0, r1, o0, o1⟩ := ha
    obtain ⟨m0, -, q0, k0⟩ := o0.run
    obtain ⟨m1, -, q1, k1⟩ := o1.run
    obtain ⟨r, hv⟩ := xorOp_view t a b r0 r1 hk.1 hk.2 o1.1 e1.ord (ho _)
    refine ⟨.flag r, ?_⟩
    cases t <;> simp only [q0, q1, Proc.ofOption, Proc.bind, k0, k1, if_true] <;>
      exact hv.map (fun r => (Answer.flag r, s0)) fun r => (Answer.flag r, s1)
  | max t B a b =>
    obtain ⟨r0, r1, o0, o1⟩ := ha
    obtain ⟨m0, j0, q0, k0⟩ := o0.run
    obtain ⟨m1, j1, q1, k1⟩ := o1.run
    obtain ⟨hk0, hk1, hr0, hr1, hB, hl0, hl1, hor⟩ := hk
    have hm0 := j0 _ rfl
    have hm1 := j1 _ rfl
    obtain ⟨r, hv⟩ := maxOp_view t B a b r0 r1 hk0 hk1 hr0 hr1 hB hl0 hl1 e1.ord (ho _) hor
    refine ⟨.nat r, ?_⟩
    cases t <;> simp only [q0, q1, Proc.ofOption, Proc.bind, k0, k1, hm0, hm1, if_true] <;>
      exact hv.map (fun r => (Answer.nat r, s0)) fun r => (Answer.nat r, s1)
  | var t a b => exact hb.elim
  | lin d a b => exact hb.elim
  | freq a b => exact hb.elim

/-! ## A session -/

/-- The rounds of a session in two worlds that server `1` (`first = false`) or server `0` (`first = true`) cannot tell apart look the same to it. -/
theorem session_views (c : StoreCfg) {g0 g1 : StoreRng} (hg : GoodRng intModulus g0) {nbits : ℕ} (coef : ℕ → ℤ)
    (rs : List ((Batch × Env × Env) × (Batch × Env × Env)))
    (hr : ∀ r ∈ rs, RoundOk nbits r.1 ∧ RoundOk nbits r.2 ∧ r.1.1.Plain ∧ r.2.1.Plain ∧ r.2.2.1.draw = r.1.2.1.draw ∧ r.2.2.2.draw = r.1.2.2.draw)
    {y : Shared} {s0 s1 : Srv} (hs : InStep y s0 s1) :
    ∃ a b a' b' : List Answer × Srv, ∃ v0 v1 v0' v1' : List Seen,
      PairW (session false c g0 nbits coef (rs.map (·.1.2.1)) s0) (session true c g1 nbits coef (rs.map (·.1.2.2)) s1) a b v0 v1 ∧
      PairW (session false c g0 nbits coef (rs.map (·.2.2.1)) s0) (session true c g1 nbits coef (rs.map (·.2.2.2)) s1) a' b' v0' v1' ∧
      ((∀ r ∈ rs, r.1.1.seen0 nbits r.1.2.1 r.1.2.2.ord = r.2.1.seen0 nbits r.2.2.1 r.2.2.2.ord) → v0 = v0') ∧
      ((∀ r ∈ rs, r.1.1.seen1 nbits r.1.2.1 r.1.2.2.ord = r.2.1.seen1 nbits r.2.2.1 r.2.2.2.ord) → v1 = v1') := by
  induction rs generalizing y s0 s1 with
  | nil => exact ⟨_, _, _, _, _, _, _, _, PairW.ret _ _, PairW.ret _ _, fun _ => rfl, fun _ => rfl⟩
  | cons r rs ih =>
    obtain ⟨h1, h2, p1, p2, d0, d1⟩ := hr r List.mem_cons_self
    obtain ⟨t0, t1, hH, hI, -⟩ := loopHead_pair c (g1 := g1) hg hs h1.draw r.1.2.1.draw
    obtain ⟨x0, x1, hW⟩ := hH.recorded
    obtain ⟨z, hz⟩ := dispatch_view c g0 g1 coef p1 h1 t0 t1
    obtain ⟨z', hz'⟩ := dispatch_view c g0 g1 coef p2 h2 t0 t1
    obtain ⟨a, b, a', b', v0, v1, v0', v1', hA, hB, e0, e1⟩ := ih (fun q hq => hr q (List.mem_cons_of_mem _ hq)) hI
    have HA := (hW.bind (Q0 := loopBody false c g0 nbits coef r.1.2.1) (Q1 := loopBody true c g1 nbits coef r.1.2.2) hz).bind
      (Q0 := fun q => (session false c g0 nbits coef (rs.map (·.1.2.1)) q.2).bind fun p => .ret (q.1 :: p.1, p.2))
      (Q1 := fun q => (session true c g1 nbits coef (rs.map (·.1.2.2)) q.2).bind fun p => .ret (q.1 :: p.1, p.2)) (PairW.map (fun p => (z :: p.1, p.2))
        (fun p => (r.1.1.quiet :: p.1, p.2)) hA)
    have HB := (hW.bind (Q0 := loopBody false c g0 nbits coef r.2.2.1) (Q1 := loopBody true c g1 nbits coef r.2.2.2) hz').bind
      (Q0 := fun q => (session false c g0 nbits coef (rs.map (·.2.2.1)) q.2).bind fun p => .ret (q.1 :: p.1, p.2))
      (Q1 := fun q => (session true c g1 nbits coef (rs.map (·.2.2.2)) q.2).bind fun p => .ret (q.1 :: p.1, p.2)) (PairW.map (fun p => (z' :: p.1, p.2))
        (fun p => (r.2.1.quiet :: p.1, p.2)) hB)
    rw [← iteration_split, ← iteration_split] at HA
    rw [← d0, ← d1, ← iteration_split, ← iteration_split] at HB
    refine ⟨_, _, _, _, _, _, _, _, HA, HB, ?_, ?_⟩
    · intro h
      rw [e0 fun q hq => h q (List.mem_cons_of_mem _ hq), h r List.mem_cons_self]
    · intro h
      rw [e1 fun q hq => h q (List.mem_cons_of_mem _ hq), h r List.mem_cons_self]

end Verif

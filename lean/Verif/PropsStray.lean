import Verif.PropsStale

/-!
# C76: connections made to one server only
-/

namespace Verif

/-! ## Unknown messages -/

/-- A connection with a type no operation has. -/
def Env.Unknown (e : Env) : Prop :=
  ∃ t n r, Opens t n none e.stream r ∧ t ∉ [1#32, 2#32, 3#32, 4#32, 5#32, 6#32, 7#32, 8#32, 9#32, 10#32]

/-- What precedes `accept` in an iteration. -/
def loopHead (sv : Bool) (c : StoreCfg) (g : StoreRng) (d : ℤ) (s : Srv) : Proc Srv :=
  (maybeRefresh sv d s.snip).bind fun sn => (maybeUpdate intModulus c g sv s.cor).bind fun co => .ret ⟨sn, co⟩

/-- What follows. -/
noncomputable def loopBody (sv : Bool) (c : StoreCfg) (g : StoreRng) (nbits : ℕ) (coef : ℕ → ℤ) (e : Env) (s : Srv) : Proc (Answer × Srv) :=
  if sv then dispatch1 c g nbits coef e s else dispatch0 c g nbits coef e s

/-- The head of the loop has nothing to do. -/
structure Srv.Ready (c : StoreCfg) (s : Srv) : Prop where
  uses : s.snip.uses ≤ 1000000
  da : c.batch * c.nbits / 2 ≤ s.cor.dabits.length

theorem iteration_split (sv : Bool) (c : StoreCfg) (g : StoreRng) (nbits : ℕ) (coef : ℕ → ℤ) (e : Env) (s : Srv) :
    iteration sv c g nbits coef e s = (loopHead sv c g e.draw s).bind (loopBody sv c g nbits coef e) := by
  unfold iteration loopHead
  rw [Proc.bind_assoc]
  congr 1; funext sn
  rw [Proc.bind_assoc]
  congr 1

theorem loopHead_ready {sv : Bool} {c : StoreCfg} {g : StoreRng} {d : ℤ} {s : Srv} (h : s.Ready c) : loopHead sv c g d s = .ret s := by
  unfold loopHead
  rw [maybeRefresh_none h.uses, maybeUpdate_full _ _ h.da]
  rfl

theorem loopBody_unknown {sv : Bool} {c : StoreCfg} {g : StoreRng} {nbits : ℕ} {coef : ℕ → ℤ} {e : Env} (he : e.Unknown) (s : Srv) :
    loopBody sv c g nbits coef e s = .ret (.idle, s) := by
  obtain ⟨t, n, r, o, ht⟩ := he
  obtain ⟨mx, -, q, k⟩ := o.run
  simp only [List.mem_cons, List.not_mem_nil, or_false, not_or] at ht
  obtain ⟨h1, h2, h3, h4, h5, h6, h7, h8, h9, h10⟩ := ht
  cases sv <;>
    simp only [loopBody, dispatch0, dispatch1, q, Proc.ofOption, Proc.bind, h1, h2, h3, h4, h5, h6, h7, h8, h9, h10, if_false, if_true,
      Bool.false_eq_true]

/-- From a state in which the head of the loop has nothing to do, unknown messages are passed over. -/
theorem session_ready {sv : Bool} {c : StoreCfg} {g : StoreRng} {nbits : ℕ} {coef : ℕ → ℤ} {s : Srv} (hs : s.Ready c) (ids : List Env)
    (hi : ∀ e ∈ ids, e.Unknown) (e : Env) (rest : List Env) :
    session sv c g nbits coef (ids ++ e :: rest) s = (loopBody sv c g nbits coef e s).bind fun r =>
      (session sv c g nbits coef rest r.2).bind fun q => .ret (List.replicate ids.length Answer.idle ++ r.1 :: q.1, q.2) := by
  induction ids with
  | nil =>
    rw [List.nil_append, session, iteration_split, loopHead_ready hs]
    rfl
  | cons i ids ih =>
    rw [List.cons_append, session, iteration_split, loopHead_ready hs]
    show ((loopBody sv c g nbits coef i s).bind _) = _
    rw [loopBody_unknown (hi i List.mem_cons_self)]
    show ((session sv c g nbits coef (ids ++ e :: rest) s).bind _) = _
    rw [ih fun e he => hi e (List.mem_cons_of_mem _ he), Proc.bind_assoc]
    congr 1; funext r
    rw [Proc.bind_assoc]
    congr 1

/-- The draw for a refresh of the check point is made on the first of the connections. -/
def firstDraw (ids : List Env) (e : Env) : ℤ := (ids.head?.getD e).draw

theorem session_split {sv : Bool} {c : StoreCfg} {g : StoreRng} {nbits : ℕ} {coef : ℕ → ℤ} (s : Srv) (ids : List Env)
    (hi : ∀ e ∈ ids, e.Unknown) (e : Env) (rest : List Env) :
    ∃ K, session sv c g nbits coef (ids ++ e :: rest) s = (loopHead sv c g (firstDraw ids e) s).bind K ∧
      ∀ s', s'.Ready c → K s' = (loopBody sv c g nbits coef e s').bind fun r =>
        (session sv c g nbits coef rest r.2).bind fun q => .ret (List.replicate ids.length Answer.idle ++ r.1 :: q.1, q.2) := by
  cases ids with
  | nil =>
    refine ⟨_, ?_, fun s' _ => rfl⟩
    rw [List.nil_append, session, iteration_split, Proc.bind_assoc]
    rfl
  | cons i ids =>
    refine ⟨fun s' => (loopBody sv c g nbits coef i s').bind fun r => (session sv c g nbits coef (ids ++ e :: rest) r.2).bind fun q =>
      .ret (r.1 :: q.1, q.2), ?_, fun s' hs' => ?_⟩
    · rw [List.cons_append, session, iteration_split, Proc.bind_assoc]
      rfl
    · beta_reduce
      rw [loopBody_unknown (hi i List.mem_cons_self)]
      show ((session sv c g nbits coef (ids ++ e :: rest) s').bind _) = _
      rw [session_ready hs' ids (fun e he => hi e (List.mem_cons_of_mem _ he)), Proc.bind_assoc]
      congr 1; funext r
      rw [Proc.bind_assoc]
      congr 1

theorem maybeUpdate_fills {p : ℕ} (hp : GoodMod p) (c : StoreCfg) (g0 g1 : StoreRng) (hg : GoodRng p g0) (s0 s1 : Store) (h : StoresOk p s0 s1) :
    ∃ s0' s1', Pair (maybeUpdate p c g0 false s0) (maybeUpdate p c g1 true s1) s0' s1' ∧ StoresOk p s0' s1' ∧
      c.batch * c.nbits / 2 ≤ s0'.dabits.length := by
  by_cases hc : s0.dabits.length < c.batch * c.nbits / 2
  · have hm : c.batch * c.nbits / 2 ≤ 2 * 1 * c.nbits * c.batch := by
      rw [mul_comm c.batch, mul_assoc]
      omega
    unfold maybeUpdate
    rw [← h.len]
    dsimp only
    rw [if_pos hc, if_pos (by omega), if_pos (by omega)]
    obtain ⟨d0, d1, hP, hok, hl⟩ := addDaBits_pair hp c g0 g1 hg (2 * 1 * c.nbits * c.batch) s0 s1
    refine ⟨_, _, hP, ⟨forall2_append h.da hok, h.tr⟩, ?_⟩
    simp only [List.length_append]
    omega
  · exact ⟨s0, s1, by rw [maybeUpdate_full _ _ (by omega), maybeUpdate_full _ _ (by rw [← h.len]; omega)]; exact Pair.ret _ _, h, by omega⟩

theorem loopHead_pair (c : StoreCfg) {g0 g1 : StoreRng} (hg : GoodRng intModulus g0) {y : Shared} {s0 s1 : Srv} (hs : InStep y s0 s1) {draw : ℤ}
    (hd : Canon draw intModulus) (d0 : ℤ) : ∃ s0' s1', Pair (loopHead false c g0 d0 s0) (loopHead true c g1 draw s1) s0' s1' ∧
      InStep (y.refresh draw) s0' s1' ∧ s0'.Ready c ∧ s1'.Ready c := by
  obtain ⟨t0, t1, hP, q0, q1⟩ := maybeRefresh_pair hs.sn0 hs.sn1 hd d0
  obtain ⟨c0, c1, hM, hok, hl⟩ := maybeUpdate_fills goodModulus c g0 g1 hg s0.cor s1.cor hs.cor
  have hu : (y.refresh draw).uses ≤ 1000000 := by
    unfold Shared.refresh
    split
    · exact Nat.zero_le _
    · omega
  exact ⟨⟨t0, c0⟩, ⟨t1, c1⟩, hP.bind (hM.bind (Pair.ret _ _)), ⟨q0, q1, hok⟩, ⟨by rw [q0.huses]; exact hu, hl⟩,
    ⟨by rw [q1.huses]; exact hu, by rw [← hok.len]; exact hl⟩⟩

/-- A query, preceded by any number of connections with unknown messages at either server. -/
structure Visit where
  ids0 : List Env
  ids1 : List Env
  batch : Batch
  e0 : Env
  e1 : Env

/-- The round it amounts to. -/
def Visit.round (v : Visit) : Batch × Env × Env := (v.batch, v.e0, { v.e1 with draw := firstDraw v.ids1 v.e1 })

/-- C76, the part that holds: unknown messages sent to one of the servers only, in any number, do no harm. Every query is answered as
without them. -/
theorem C76_unknown_partial (c : StoreCfg) {g0 g1 : StoreRng} (hg : GoodRng intModulus g0) {nbits : ℕ} (coef : ℕ → ℤ) (vs : List Visit)
    (hi : ∀ v ∈ vs, ∀ e, e ∈ v.ids0 ∨ e ∈ v.ids1 → e.Unknown) (hr : ∀ v ∈ vs, RoundOk nbits v.round) {y : Shared} {s0 s1 : Srv} (hs : InStep y s0 s1) :
    ∃ as s0' s1' y', Always (session false c g0 nbits coef (vs.flatMap fun v => v.ids0 ++ [v.e0]) s0)
        (session true c g1 nbits coef (vs.flatMap fun v => v.ids1 ++ [v.e1]) s1)
        ((List.zipWith (fun v a => List.replicate v.ids0.length Answer.idle ++ [a]) vs as).flatten, s0')
        (vs.flatMap fun v => List.replicate v.ids1.length Answer.idle ++ [v.batch.quiet], s1') ∧
      SessionAnswers nbits coef y (vs.map Visit.round) as y' ∧ InStep y' s0' s1' := by
  suffices H : ∃ as s0' s1' y', Pair (session false c g0 nbits coef (vs.flatMap fun v => v.ids0 ++ [v.e0]) s0)
        (session true c g1 nbits coef (vs.flatMap fun v => v.ids1 ++ [v.e1]) s1)
        ((List.zipWith (fun v a => List.replicate v.ids0.length Answer.idle ++ [a]) vs as).flatten, s0')
        (vs.flatMap fun v => List.replicate v.ids1.length Answer.idle ++ [v.batch.quiet], s1') ∧
      SessionAnswers nbits coef y (vs.map Visit.round) as y' ∧ InStep y' s0' s1' by
    obtain ⟨as, s0', s1', y', h, q⟩ := H
    exact ⟨as, s0', s1', y', h.always, q⟩
  induction vs generalizing y s0 s1 with
  | nil => exact ⟨[], s0, s1, y, Pair.ret _ _, ⟨rfl, rfl⟩, hs⟩
  | cons v vs ih =>
    have h := hr v List.mem_cons_self
    have hv := hi v List.mem_cons_self
    obtain ⟨t0, t1, hH, hI, r0, r1⟩ := loopHead_pair c (g1 := g1) hg hs h.draw (firstDraw v.ids0 v.e0)
    obtain ⟨a, u0, u1, hD, hA, hJ⟩ := dispatch_pair c (g1 := g1) hg coef h.arrives h.ok h.ord hI
    obtain ⟨as, s0', s1', y', hQ, hB, hE⟩ := ih (fun v' h' => hi v' (List.mem_cons_of_mem _ h')) (fun v' h' => hr v' (List.mem_cons_of_mem _ h')) hJ
    refine ⟨a :: as, s0', s1', y', ?_, ⟨a, as, rfl, hA, hB⟩, hE⟩
    obtain ⟨K0, e0, k0⟩ := session_split (sv := false) (c := c) (g := g0) (nbits := nbits) (coef := coef) s0 v.ids0 (fun e he => hv e (.inl he)) v.e0
      (vs.flatMap fun v => v.ids0 ++ [v.e0])
    obtain ⟨K1, e1, k1⟩ := session_split (sv := true) (c := c) (g := g1) (nbits := nbits) (coef := coef) s1 v.ids1 (fun e he => hv e (.inr he)) v.e1
      (vs.flatMap fun v => v.ids1 ++ [v.e1])
    simp only [List.flatMap_cons, List.append_assoc, List.cons_append, List.nil_append, List.zipWith_cons_cons, List.flatten_cons]
    rw [e0, e1]
    refine hH.bind ?_
    rw [k0 _ r0, k1 _ r1]
    exact Pair.bind (a := (a, u0)) (b := (v.batch.quiet, u1)) hD (hQ.bind (Pair.ret _ _))

/-! ## A query sent to one server only -/

/-- The keys of a batch at the servers, and the number of submissions announced to server 0. -/
def Batch.keys0 : Batch → List Bytes
  | .idle _ => []
  | .bitSum a _ => a.map (·.1)
  | .intSum a _ | .xor _ a _ => a.map (·.1)
  | .max _ _ a _ => a.map (·.1)
  | .var _ a _ => a.map (·.1)
  | .lin _ a _ => a.map (·.1)
  | .freq a _ => a.map (·.1)

/-- At server 1. -/
def Batch.keys1 : Batch → List Bytes
  | .idle _ => []
  | .bitSum _ b => b.map (·.1)
  | .intSum _ b | .xor _ _ b => b.map (·.1)
  | .max _ _ _ b => b.map (·.1)
  | .var _ _ b => b.map (·.1)
  | .lin _ _ b => b.map (·.1)
  | .freq _ b => b.map (·.1)

/-- Two queries of the same operation, not FREQ. -/
def Batch.Like : Batch → Batch → Prop
  | .bitSum _ _, .bitSum _ _ | .intSum _ _, .intSum _ _ => True
  | .xor t _ _, .xor t' _ _ => t = t'
  | .max t B _ _, .max t' B' _ _ => t = t' ∧ B = B'
  | .var t _ _, .var t' _ _ => t = t'
  | .lin d _ _, .lin d' _ _ => d = d'
  | _, _ => False

/-- `Batch.Ok` without what concerns both servers' halves at once. -/
def Batch.HalvesOk (nbits : ℕ) : Batch → Prop
  | .max _ B a b => Keyed a ∧ Keyed b ∧ RowsOk B a ∧ RowsOk B b ∧ B + 1 < 2 ^ 32 ∧ a.length * (B + 1) < 2 ^ 32 ∧ b.length * (B + 1) < 2 ^ 32
  | .freq _ _ => False
  | b => b.Ok nbits

/-- Server 0's half of the first and server 1's half of the second batch. -/
def Batch.mix : Batch → Batch → Batch
  | .bitSum a _, .bitSum _ b => .bitSum a b
  | .intSum a _, .intSum _ b => .intSum a b
  | .xor t a _, .xor _ _ b => .xor t a b
  | .max t B a _, .max _ _ _ b => .max t B a b
  | .var t a _, .var _ _ b => .var t a b
  | .lin d a _, .lin _ _ b => .lin d a b
  | b, _ => b

/-- The answer is that the batch is refused. -/
def Answer.Refused : Answer → Prop
  | .word r => r = .invalid
  | .flag r => r = .invalid
  | .nat r => r = .invalid
  | .real r => r = .invalid
  | .lin r => r = .invalid
  | _ => False

theorem Batch.Like.arrives {nbits : ℕ} {b b' : Batch} (h : b.Like b') {s0 s1 s0' s1' : Bytes} (h0 : b.Arrives nbits s0 s1) (h1 : b'.Arrives nbits s0' s1') :
    (b.mix b').Arrives nbits s0 s1' := by
  cases b <;> cases b' <;> simp only [Batch.Like] at h
  case bitSum => obtain ⟨r0, r1, p, q⟩ := h0; obtain ⟨r0', r1', p', q'⟩ := h1; exact ⟨r0, r1', p, q'⟩
  case intSum => obtain ⟨r0, r1, p, q⟩ := h0; obtain ⟨r0', r1', p', q'⟩ := h1; exact ⟨r0, r1', p, q'⟩
  case xor => subst h; obtain ⟨r0, r1, p, q⟩ := h0; obtain ⟨r0', r1', p', q'⟩ := h1; exact ⟨r0, r1', p, q'⟩
  case max =>
    obtain ⟨rfl, rfl⟩ := h; obtain ⟨r0, r1, p, q⟩ := h0; obtain ⟨r0', r1', p', q'⟩ := h1; exact ⟨r0, r1', p, q'⟩
  case var => subst h; obtain ⟨r0, r1, p, v, q⟩ := h0; obtain ⟨r0', r1', p', v', q'⟩ := h1; exact ⟨r0, r1', p, v, q'⟩
  case lin => subst h; obtain ⟨r0, r1, p, v, q⟩ := h0; obtain ⟨r0', r1', p', v', q'⟩ := h1; exact ⟨r0, r1', p, v, q'⟩

theorem bothKeys_disjoint {α : Type} {ok : α → Bool} {a b : List (Bytes × α)} (h : List.Disjoint (a.map (·.1)) (b.map (·.1))) : bothKeys ok a b = ∅ := by
  ext k
  simp only [bothKeys, Finset.mem_filter, List.mem_toFinset, Finset.notMem_empty, iff_false]
  rintro ⟨hk, -, hf⟩
  obtain ⟨v, hv⟩ := Option.isSome_iff_exists.1 hf
  exact h hk (List.mem_map.2 ⟨_, firstOf_mem hv, rfl⟩)

theorem Batch.Like.ok {nbits : ℕ} {b b' : Batch} (h : b.Like b') (h0 : b.HalvesOk nbits) (h1 : b'.HalvesOk nbits)
    (hd : List.Disjoint b.keys0 b'.keys1) (hn : b.keys0 ≠ []) : (b.mix b').Ok nbits := by
  cases b <;> cases b' <;> simp only [Batch.Like] at h
  case bitSum => exact ⟨h0.1, h1.2⟩
  case intSum => exact ⟨h0.1, h1.2.1, h1.2.2⟩
  case xor => exact ⟨h0.1, h1.2⟩
  case max t B a _ t' B' _ b =>
    obtain ⟨rfl, rfl⟩ := h
    obtain ⟨k0, -, r0, -, hB, l0, -⟩ := h0
    obtain ⟨-, k1, -, r1, -, -, l1⟩ := h1
    refine ⟨k0, k1, r0, r1, hB, l0, l1, .inl ?_⟩
    rw [bothKeys_disjoint hd, Finset.card_empty]
    cases a with
    | nil => exact absurd rfl hn
    | cons _ _ => simp
  case var => exact h1
  case lin => subst h; exact h1

theorem verdict_none {α : Type} {n : ℕ} (hn : 0 < n) (a : α) : verdict 0 n a = .invalid := if_pos (by omega)

theorem Batch.Like.refused {nbits : ℕ} {coef : ℕ → ℤ} {fma : Bool} {ord : {α : Type} → Map α → Map α} {x : ℤ} {pos : ℕ} {b b' : Batch} (h : b.Like b')
    (hd : List.Disjoint b.keys0 b'.keys1) (hn : b.keys0 ≠ []) {r : Answer} (hr : (b.mix b').Answers nbits coef fma ord x pos r) : r.Refused := by
  have pos' : ∀ {α : Type} {l : List (Bytes × α)}, l.map (·.1) ≠ [] → 0 < l.length := fun h => List.length_pos_iff.2 fun h' => h (by rw [h']; rfl)
  cases b <;> cases b' <;> simp only [Batch.Like] at h
  case bitSum =>
    simp only [Batch.mix, Batch.Answers, bothKeys_disjoint hd, Finset.card_empty, verdict_none (pos' hn)] at hr
    rw [hr]; rfl
  case intSum =>
    simp only [Batch.mix, Batch.Answers, bothKeys_disjoint hd, Finset.card_empty, verdict_none (pos' hn)] at hr
    rw [hr]; rfl
  case xor =>
    simp only [Batch.mix, Batch.Answers, bothKeys_disjoint hd, Finset.card_empty, verdict_none (pos' hn)] at hr
    rw [hr]; rfl
  case max =>
    have := pos' hn
    simp only [Batch.mix, Batch.Answers, bothKeys_disjoint hd, Finset.card_empty, mul_zero, this, if_true] at hr
    rw [hr]; rfl
  case var =>
    simp only [Batch.mix, Batch.Answers, varCounted, passing, bothKeys_disjoint hd, Finset.filter_empty, Finset.card_empty, verdict_none (pos' hn)] at hr
    rw [hr]; rfl
  case lin =>
    simp only [Batch.mix, Batch.Answers, linCounted, bothKeys_disjoint hd, Finset.filter_empty, Finset.card_empty, verdict_none (pos' hn)] at hr
    obtain ⟨-, -, -, -, -, -, -, -, hr⟩ := hr
    rw [hr]; rfl

/-- Server 0 works on the first query of each pair while server 1 works on the second one. -/
structure Crossed (nbits : ℕ) (q : (Batch × Env × Env) × (Batch × Env × Env)) : Prop where
  like : q.1.1.Like q.2.1
  ok0 : q.1.1.HalvesOk nbits
  ok1 : q.2.1.HalvesOk nbits
  arrives0 : ∃ s1, q.1.1.Arrives nbits q.1.2.1.stream s1
  arrives1 : ∃ s0, q.2.1.Arrives nbits s0 q.2.2.2.stream
  some0 : q.1.1.keys0 ≠ []
  other : List.Disjoint q.1.1.keys0 q.2.1.keys1
  ord : ∀ α : Type, IsOrder (q.2.2.2.ord (α := α))
  draw : Canon q.2.2.2.draw intModulus

theorem crossed_session (c : StoreCfg) {g0 g1 : StoreRng} (hg : GoodRng intModulus g0) {nbits : ℕ} (coef : ℕ → ℤ)
    (qs : List ((Batch × Env × Env) × (Batch × Env × Env))) (hq : ∀ q ∈ qs, Crossed nbits q) {y : Shared} {s0 s1 : Srv} (hs : InStep y s0 s1) :
    ∃ as s0' s1' y', Always (session false c g0 nbits coef (qs.map (·.1.2.1)) s0) (session true c g1 nbits coef (qs.map (·.2.2.2)) s1)
        (as, s0') (qs.map (·.1.1.quiet), s1') ∧ as.length = qs.length ∧ (∀ a ∈ as, a.Refused) ∧ InStep y' s0' s1' := by
  have hr : ∀ r ∈ qs.map (fun q => (q.1.1.mix q.2.1, q.1.2.1, q.2.2.2)), RoundOk nbits r := by
    intro r hr
    obtain ⟨q, hm, rfl⟩ := List.mem_map.1 hr
    have h := hq q hm
    obtain ⟨t1, a0⟩ := h.arrives0
    obtain ⟨t0, a1⟩ := h.arrives1
    exact ⟨h.like.arrives a0 a1, h.like.ok h.ok0 h.ok1 h.other h.some0, h.ord, h.draw⟩
  obtain ⟨as, s0', s1', y', hP, hA, hI⟩ := C47_session_partial c (g1 := g1) hg coef _ hr hs
  simp only [List.map_map, Function.comp_def] at hP
  have hquiet : qs.map (fun q => (q.1.1.mix q.2.1).quiet) = qs.map (·.1.1.quiet) := by
    refine List.map_congr_left fun q hm => ?_
    have h := (hq q hm).like
    cases e : q.1.1 <;> cases e' : q.2.1 <;> simp only [e, e', Batch.Like] at h <;> rfl
  rw [hquiet] at hP
  refine ⟨as, s0', s1', y', hP, ?_, ?_, hI⟩
  · clear hP hquiet hr hq hI hs
    induction qs generalizing y as with
    | nil => simp [hA.1]
    | cons q qs ih =>
      obtain ⟨a, as', rfl, -, h⟩ := hA
      simp [ih _ h]
  · clear hP hquiet hr hI hs
    induction qs generalizing y as with
    | nil => simp [hA.1]
    | cons q qs ih =>
      obtain ⟨a, as', rfl, ha, h⟩ := hA
      intro a' ha'
      rcases List.mem_cons.1 ha' with rfl | ha'
      · have hc := hq q List.mem_cons_self
        exact hc.like.refused hc.other hc.some0 ha
      · exact ih (fun q hm => hq q (List.mem_cons_of_mem _ hm)) _ h a' ha'

/-- What is required of the queries: all of one operation, each well-formed and nonempty, no key in two of them. -/
structure OneKind (nbits : ℕ) (rs : List (Batch × Env × Env)) : Prop where
  like : ∀ r ∈ rs, ∀ r' ∈ rs, r.1.Like r'.1
  ok : ∀ r ∈ rs, r.1.HalvesOk nbits
  arrives : ∀ r ∈ rs, r.1.Arrives nbits r.2.1.stream r.2.2.stream
  some0 : ∀ r ∈ rs, r.1.keys0 ≠ []
  apart : rs.Pairwise fun r r' => List.Disjoint r.1.keys0 r'.1.keys1 ∧ List.Disjoint r'.1.keys0 r.1.keys1
  ord : ∀ r ∈ rs, ∀ α : Type, IsOrder (r.2.2.ord (α := α))
  draw : ∀ r ∈ rs, Canon r.2.2.draw intModulus

theorem zip_behind {α : Type*} {R : α → α → Prop} {z : α} {rs : List α} (h : (z :: rs).Pairwise R) {q : α × α} (hq : q ∈ rs.zip (z :: rs)) :
    R q.2 q.1 ∧ q.1 ∈ rs ∧ q.2 ∈ z :: rs := by
  induction rs generalizing z with
  | nil => simp at hq
  | cons r rs ih =>
    rw [List.zip_cons_cons] at hq
    rcases List.mem_cons.1 hq with rfl | hq
    · exact ⟨(List.pairwise_cons.1 h).1 r List.mem_cons_self, List.mem_cons_self, List.mem_cons_self⟩
    · obtain ⟨h1, h2, h3⟩ := ih (List.pairwise_cons.1 h).2 hq
      exact ⟨h1, List.mem_cons_of_mem _ h2, List.mem_cons_of_mem _ h3⟩

theorem zip_fst {α β γ : Type*} (f : α → γ) (l : List α) (l' : List β) (h : l.length ≤ l'.length) : (l.zip l').map (fun q => f q.1) = l.map f := by
  rw [← Function.comp_def, ← List.map_map, List.map_fst_zip h]

theorem zip_snd {α γ : Type*} (f : α → γ) (z : α) (l : List α) : (l.zip (z :: l)).map (fun q => f q.2) = ((z :: l).dropLast).map f := by
  induction l generalizing z with
  | nil => rfl
  | cons r l ih => simp only [List.zip_cons_cons, List.map_cons, ih, List.dropLast_cons_cons]

/-- C76 is false for queries. One query sent to server 1 only, then any number of queries of the same operation (not FREQ) sent to both servers, no
two of which share a key: every one of them is refused, in every schedule, as server 1 is always one query behind. -/
theorem C76_false_stray1 (c : StoreCfg) {g0 g1 : StoreRng} (hg : GoodRng intModulus g0) {nbits : ℕ} (coef : ℕ → ℤ) {b : Batch} {ez : Env} (hz : b.HalvesOk nbits)
    (haz : ∃ s0, b.Arrives nbits s0 ez.stream) (hoz : ∀ α : Type, IsOrder (ez.ord (α := α))) (hdz : Canon ez.draw intModulus)
    (rs : List (Batch × Env × Env)) (hr : OneKind nbits rs) (hlike : ∀ r ∈ rs, r.1.Like b) (hnew : ∀ r ∈ rs, List.Disjoint r.1.keys0 b.keys1)
    {y : Shared} {s0 s1 : Srv} (hs : InStep y s0 s1) :
    ∃ as s0' s1' y', Always (session false c g0 nbits coef (rs.map (·.2.1)) s0)
        (session true c g1 nbits coef ((ez :: rs.map (·.2.2)).dropLast) s1) (as, s0') (rs.map (·.1.quiet), s1') ∧
      as.length = rs.length ∧ (∀ a ∈ as, a.Refused) ∧ InStep y' s0' s1' := by
  obtain ⟨t0, haz⟩ := haz
  have hpw : ((b, { ez with stream := t0 }, ez) :: rs).Pairwise fun r r' => List.Disjoint r'.1.keys0 r.1.keys1 :=
    List.pairwise_cons.2 ⟨fun r h => hnew r h, hr.apart.imp fun h => h.2⟩
  have hcr : ∀ q ∈ rs.zip ((b, { ez with stream := t0 }, ez) :: rs), Crossed nbits q := by
    intro q hq
    obtain ⟨hd, h1, h2⟩ := zip_behind hpw hq
    have hm : q.1.1.Like q.2.1 ∧ q.2.1.HalvesOk nbits ∧ (∃ s0, q.2.1.Arrives nbits s0 q.2.2.2.stream) ∧ (∀ α : Type, IsOrder (q.2.2.2.ord (α := α))) ∧
        Canon q.2.2.2.draw intModulus := by
      rcases List.mem_cons.1 h2 with h2 | h2
      · rw [h2]; exact ⟨hlike _ h1, hz, ⟨t0, haz⟩, hoz, hdz⟩
      · exact ⟨hr.like _ h1 _ h2, hr.ok _ h2, ⟨_, hr.arrives _ h2⟩, hr.ord _ h2, hr.draw _ h2⟩
    exact ⟨hm.1, hr.ok _ h1, hm.2.1, ⟨_, hr.arrives _ h1⟩, hm.2.2.1, hr.some0 _ h1, hd, hm.2.2.2.1, hm.2.2.2.2⟩
  obtain ⟨as, s0', s1', y', hP, hl, hA, hI⟩ := crossed_session c (g1 := g1) hg coef _ hcr hs
  rw [zip_fst (fun r : Batch × Env × Env => r.2.1) rs _ (by simp), zip_snd (fun r : Batch × Env × Env => r.2.2),
    zip_fst (fun r : Batch × Env × Env => r.1.quiet) rs _ (by simp), List.map_dropLast, List.map_cons] at hP
  exact ⟨as, s0', s1', y', hP, by rw [hl]; simp, hA, hI⟩

/-- The same for a query sent to server 0 only: server 1 is always one query ahead. -/
theorem C76_false_stray0 (c : StoreCfg) {g0 g1 : StoreRng} (hg : GoodRng intModulus g0) {nbits : ℕ} (coef : ℕ → ℤ) {b : Batch} {ez : Env} (hz : b.HalvesOk nbits)
    (haz : ∃ s1, b.Arrives nbits ez.stream s1) (hnz : b.keys0 ≠ [])
    (rs : List (Batch × Env × Env)) (hr : OneKind nbits rs) (hlike : ∀ r ∈ rs, b.Like r.1) (hnew : ∀ r ∈ rs, List.Disjoint b.keys0 r.1.keys1)
    {y : Shared} {s0 s1 : Srv} (hs : InStep y s0 s1) :
    ∃ as s0' s1' y', Always (session false c g0 nbits coef ((ez :: rs.map (·.2.1)).dropLast) s0)
        (session true c g1 nbits coef (rs.map (·.2.2)) s1) (as, s0') (rs.map (·.1.quiet), s1') ∧
      as.length = rs.length ∧ (∀ a ∈ as, a.Refused) ∧ InStep y' s0' s1' := by
  obtain ⟨t1, haz⟩ := haz
  have hpw : ((b, ez, { ez with stream := t1 }) :: rs).Pairwise fun r r' => List.Disjoint r.1.keys0 r'.1.keys1 :=
    List.pairwise_cons.2 ⟨fun r h => hnew r h, hr.apart.imp fun h => h.1⟩
  have hcr : ∀ q ∈ (rs.zip ((b, ez, { ez with stream := t1 }) :: rs)).map Prod.swap, Crossed nbits q := by
    intro q hq
    obtain ⟨q, hq', rfl⟩ := List.mem_map.1 hq
    obtain ⟨hd, h1, h2⟩ := zip_behind hpw hq'
    have hm : q.2.1.Like q.1.1 ∧ q.2.1.HalvesOk nbits ∧ (∃ s1, q.2.1.Arrives nbits q.2.2.1.stream s1) ∧ q.2.1.keys0 ≠ [] := by
      rcases List.mem_cons.1 h2 with h2 | h2
      · rw [h2]; exact ⟨hlike _ h1, hz, ⟨t1, haz⟩, hnz⟩
      · exact ⟨hr.like _ h2 _ h1, hr.ok _ h2, ⟨_, hr.arrives _ h2⟩, hr.some0 _ h2⟩
    exact ⟨hm.1, hm.2.1, hr.ok _ h1, hm.2.2.1, ⟨_, hr.arrives _ h1⟩, hm.2.2.2, hd, hr.ord _ h1, hr.draw _ h1⟩
  obtain ⟨as, s0', s1', y', hP, hl, hA, hI⟩ := crossed_session c (g1 := g1) hg coef _ hcr hs
  have hquiet : ((rs.zip ((b, ez, { ez with stream := t1 }) :: rs)).map Prod.swap).map (·.1.1.quiet) =
      (rs.zip ((b, ez, { ez with stream := t1 }) :: rs)).map (·.1.1.quiet) := by
    rw [List.map_map]
    refine List.map_congr_left fun q hm => ?_
    have h := (hcr q.swap (List.mem_map.2 ⟨q, hm, rfl⟩)).like
    simp only [Prod.fst_swap, Prod.snd_swap, Function.comp_apply] at h ⊢
    cases e : q.1.1 <;> cases e' : q.2.1 <;> simp only [e, e', Batch.Like] at h <;> rfl
  rw [hquiet] at hP
  simp only [List.map_map, Function.comp_def, Prod.fst_swap, Prod.snd_swap] at hP
  rw [zip_fst (fun r : Batch × Env × Env => r.2.2) rs _ (by simp), zip_snd (fun r : Batch × Env × Env => r.2.1),
    zip_fst (fun r : Batch × Env × Env => r.1.quiet) rs _ (by simp), List.map_dropLast, List.map_cons] at hP
  exact ⟨as, s0', s1', y', hP, by rw [hl]; simp, hA, hI⟩

/-- Twelve bytes are enough: a client connects to server 1 only and announces an empty BIT_SUM query. All later BIT_SUM queries are refused. -/
theorem C76_false_twelve_bytes (c : StoreCfg) {g0 g1 : StoreRng} (hg : GoodRng intModulus g0) {nbits : ℕ} (coef : ℕ → ℤ)
    (rs : List (List (Bytes × Bool) × List (Bytes × Bool) × Env × Env)) (hr : OneKind nbits (rs.map fun r => (Batch.bitSum r.1 r.2.1, r.2.2)))
    {y : Shared} {s0 s1 : Srv} (hs : InStep y s0 s1) :
    ∃ as s0' s1' y', Always (session false c g0 nbits coef (rs.map (·.2.2.1)) s0)
        (session true c g1 nbits coef ((plainEnv (encInit ⟨1, 0, 0⟩) :: rs.map (·.2.2.2)).dropLast) s1) (as, s0') (rs.map fun _ => .word .noAns, s1') ∧
      as.length = rs.length ∧ (∀ a ∈ as, a.Refused) ∧ InStep y' s0' s1' ∧ (encInit ⟨1, 0, 0⟩).length = 12 := by
  have ho : Opens 1#32 0 none (encInit ⟨1, 0, 0⟩) [] := ⟨by norm_num, 0, by simp, by simp⟩
  obtain ⟨as, s0', s1', y', hP, hl, hA, hI⟩ := C76_false_stray1 c (g1 := g1) hg coef (b := .bitSum [] []) (ez := plainEnv (encInit ⟨1, 0, 0⟩))
    ⟨by simp [Keyed], by simp [Keyed]⟩ ⟨_, [], [], ho, ho⟩ (plain_order _) (by simp only [Canon, plainEnv]; decide) _ hr
    (fun r h => by obtain ⟨q, -, rfl⟩ := List.mem_map.1 h; trivial) (fun r _ => by simp [Batch.keys1]) hs
  simp only [List.map_map, Function.comp_def] at hP
  exact ⟨as, s0', s1', y', hP, by simpa using hl, hA, hI, by decide⟩

/-! ## Types that server 1 does not tell apart -/

/-- The operation types with the same code at server 1. -/
def SameAtServer1 (t t' : BitVec 32) : Prop := t = t' ∨ (t, t') ∈ [(3#32, 4#32), (4#32, 3#32), (5#32, 6#32), (6#32, 5#32), (7#32, 8#32), (8#32, 7#32)]

/-- C76: AND and OR, MAX and MIN, VAR and STDDEV may be mixed up by a client. What server 1 does is the same, so that the query is
answered as server 0 was asked. -/
theorem C76_mixed_partial (c : StoreCfg) (g : StoreRng) (nbits : ℕ) (coef : ℕ → ℤ) {t t' : BitVec 32} (h : SameAtServer1 t t') (n mx : BitVec 32)
    (body : Bytes) (e : Env) (s : Srv) :
    iteration true c g nbits coef { e with stream := encInit ⟨t, n, mx⟩ ++ body } s =
      iteration true c g nbits coef { e with stream := encInit ⟨t', n, mx⟩ ++ body } s := by
  rw [iteration_split, iteration_split]
  congr 1
  funext s'
  rcases h with rfl | h
  · rfl
  · simp only [List.mem_cons, Prod.mk.injEq, List.not_mem_nil, or_false] at h
    rcases h with ⟨rfl, rfl⟩ | ⟨rfl, rfl⟩ | ⟨rfl, rfl⟩ | ⟨rfl, rfl⟩ | ⟨rfl, rfl⟩ | ⟨rfl, rfl⟩ <;>
      simp only [loopBody, dispatch1, C47_init_roundtrip _ _, Proc.ofOption, Proc.bind, if_true] <;> rfl

/-! ## Examples -/

/-- Two BIT_SUM queries with different keys meet the hypotheses of the theorems on stray queries. -/
example : OneKind 4 [(Batch.bitSum [(keyA, true)] [(keyA, false)], plainEnv (encInit ⟨1, 1, 0⟩ ++ encBitShares [(keyA, true)]),
      plainEnv (encInit ⟨1, 1, 0⟩ ++ encBitShares [(keyA, false)])),
    (Batch.bitSum [(keyB, true)] [(keyB, true)], plainEnv (encInit ⟨1, 1, 0⟩ ++ encBitShares [(keyB, true)]),
      plainEnv (encInit ⟨1, 1, 0⟩ ++ encBitShares [(keyB, true)]))] := by
  have op : ∀ l : List (Bytes × Bool), l.length = 1 → Opens 1#32 l.length none (encInit ⟨1, 1, 0⟩ ++ encBitShares l) (encBitShares l ++ []) := fun l h =>
    ⟨by omega, 0, by simp, by rw [h, List.append_nil]; rfl⟩
  refine ⟨by simp [Batch.Like], ?_, ?_, by simp [Batch.keys0], ?_, ?_, ?_⟩
  · simp [Batch.HalvesOk, Batch.Ok, Keyed]; decide
  · simp only [List.mem_cons, List.not_mem_nil, or_false, forall_eq_or_imp, forall_eq]
    exact ⟨⟨[], [], op _ rfl, op _ rfl⟩, ⟨[], [], op _ rfl, op _ rfl⟩⟩
  · simp [Batch.keys0, Batch.keys1, List.Disjoint]; decide
  · simp only [List.mem_cons, List.not_mem_nil, or_false, forall_eq_or_imp, forall_eq]
    exact ⟨plain_order _, plain_order _⟩
  · simp only [List.mem_cons, List.not_mem_nil, or_false, forall_eq_or_imp, forall_eq, Canon, plainEnv]
    decide

/-- An unknown message. -/
example : (plainEnv (encInit ⟨11, 0, 0⟩)).Unknown := ⟨11#32, 0, [], ⟨by norm_num, 0, by simp, by simp [plainEnv]⟩, by decide⟩

example : SameAtServer1 3#32 4#32 := .inr (by simp)

end Verif

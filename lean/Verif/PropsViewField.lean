import Verif.LemmasViewField
import Verif.PropsViewHonest

/-!
# C78, continued: sessions with VAR, STDDEV and LINREG

Queries of every kind but FREQ. In VAR, STDDEV and LINREG there may be other clients than the honest ones, who send what they like.
-/

namespace Verif

/-! ## Queries -/

/-- The clients of a VAR, STDDEV or LINREG query: the keys of the honest ones, and what arrives at each server in which order: the submission of
an honest client, or anything else. -/
structure Guests (α : Type) where
  n : ℕ
  key : Fin n → Bytes
  a0 : List (Fin n ⊕ Bytes × α)
  a1 : List (Fin n ⊕ Bytes × α)

structure Guests.Ok {α : Type} (p : Guests α) : Prop where
  pos : 0 < p.n
  arr0 : Arrives p.key p.a0
  arr1 : Arrives p.key p.a1
  small : p.a1.length < 2 ^ 32

/-- A query: one of C78_server0_honest, or one with field arithmetic. `t` are the root tables of the clients; `c` the circuit of LINREG. -/
inductive AnyQuery where
  | plain (q : Query)
  | var (std : Bool) (p : Guests SnipRow) (share share2 : Fin p.n → U64) (t : RootTables)
  | lin (d : ℕ) (c : Circuit) (p : Guests LinRow) (share : Fin p.n → ℕ → U64) (t : RootTables)

/-- The values of the honest clients. -/
def AnyQuery.Val : AnyQuery → Type
  | .plain q => q.Val
  | .var _ p _ _ _ => Fin p.n → U64
  | .lin _ _ p _ _ => Fin p.n → List U64 × U64

/-- The random words of the encodings, and the random draws of the packets. -/
def AnyQuery.Rand : AnyQuery → Type
  | .plain q => q.Rand
  | .var _ p _ _ _ => Fin p.n → Draws varCircuit
  | .lin _ c p _ _ => Fin p.n → Draws c

/-- What the clients send (`ModelClient`, `ModelClientSnip`, `ModelLinReg`), together with what the others send. -/
def AnyQuery.Sends (nbits : ℕ) : (q : AnyQuery) → q.Val → q.Rand → Batch → Prop
  | .plain q, v, r, b => b = q.batch nbits v r
  | .var std p s s2 t, v, r, b => ∃ f0 f1, (∀ i, clientVar nbits (v i) (s i) (s2 i) t (r i).1 = some (v i % (1#64 <<< nbits), f0 i, f1 i)) ∧
      b = .var std (fill p.key p.a0 f0) (fill p.key p.a1 f1)
  | .lin d _ p s t, v, r, b => ∃ f0 f1, (∀ i, clientLin d nbits (linMk d (v i).1 (v i).2 (s i)) t (r i).1 = some (f0 i, f1 i)) ∧
      b = .lin d (fill p.key p.a0 f0) (fill p.key p.a1 f1)

/-- The clients are as described, and the batch has a size the servers can hold. -/
def AnyQuery.Fit (nbits : ℕ) : (q : AnyQuery) → q.Val → Prop
  | .plain q, v => q.Fit nbits v
  | .var _ p _ _ t, _ => p.Ok ∧ nbits ≤ 24 ∧ ∃ l, RootCalls (2 :: l) t
  | .lin d c p _ t, v => p.Ok ∧ nbits ≤ 24 ∧ (1 ≤ d ∧ linMul d < 2 ^ 18 ∧ checkLinReg intModulus d = some c) ∧ (∃ l, RootCalls (npow2 (linMul d) :: l) t) ∧
      ∀ i, (v i).1.length = d - 1

/-- Specification: the answers are the same. For VAR and STDDEV: the sums and the sums of squares of the honest clients. For LINREG: the sums of
features, labels, and all products, of which the coefficients are made. All sums modulo the field. -/
def AnyQuery.SameAnswer (nbits : ℕ) : (q : AnyQuery) → q.Val → q.Val → Prop
  | .plain q, v, v' => q.SameAnswer nbits v v'
  | .var _ _ _ _ _, v, v' => ∑ i, (v i).toNat % 2 ^ nbits ≡ ∑ i, (v' i).toNat % 2 ^ nbits [MOD intModulus] ∧
      ∑ i, ((v i).toNat % 2 ^ nbits) ^ 2 ≡ ∑ i, ((v' i).toNat % 2 ^ nbits) ^ 2 [MOD intModulus]
  | .lin d _ _ _ _, v, v' => ∀ j < numFields d, ∑ i, (linFields nbits (v i).1 (v i).2).getD j 0 ≡ ∑ i, (linFields nbits (v' i).1 (v' i).2).getD j 0
      [MOD intModulus]

/-- MAX and MIN end: not all columns cancel (C39). -/
def AnyQuery.Ends : (q : AnyQuery) → q.Val → q.Rand → Prop
  | .plain q, v, r => q.Ends v r
  | _, _, _ => True

/-- Two batches with the same submissions for server 0. -/
def Batch.SameFirst : Batch → Batch → Prop
  | .idle _, .idle _ => True
  | .bitSum a _, .bitSum a' _ => a' = a
  | .intSum a _, .intSum a' _ => a' = a
  | .xor t a _, .xor t' a' _ => t' = t ∧ a' = a
  | .max t B a _, .max t' B' a' _ => t' = t ∧ B' = B ∧ a' = a
  | .var t a _, .var t' a' _ => t' = t ∧ a' = a
  | .lin d a _, .lin d' a' _ => d' = d ∧ a' = a
  | _, _ => False

/-! ## How many submissions are checked -/

/-- A batch with as many checks. -/
def AnyQuery.shape : AnyQuery → Batch
  | .plain _ => .idle 0
  | .var std p _ _ _ => .var std [] (fill p.key p.a1 fun _ => ⟨[0#64, 0#64], zeroPacket 1⟩)
  | .lin d _ p _ _ => .lin d [] (fill p.key p.a1 fun _ => ⟨[], 0#64, [], [], zeroPacket 0⟩)

theorem clientVar_fits {nbits : ℕ} (hb : nbits ≤ 31) {t : RootTables} {l : List ℕ} (hrc : RootCalls (2 :: l) t) {a s s2 z : U64} (r : Draws varCircuit)
    {f0 f1 : SnipRow} (h : clientVar nbits a s s2 t r.1 = some (z, f0, f1)) : varFits nbits f1 = true := by
  obtain ⟨real, r0, r1, w, h', -, -, ok, -⟩ := clientVar_spec hb hrc ⟨[], a, s, s2, r.1⟩ r.2
  rw [VarClient.out, h] at h'
  cases h'
  exact ok

theorem clientLin_fits {d nbits : ℕ} (hd : 1 ≤ d) (hsm : linMul d < 2 ^ 18) (hb : nbits ≤ 31) {c : Circuit} (hc : checkLinReg intModulus d = some c)
    {t : RootTables} {x : List U64} (hx : x.length = d - 1) {y : U64} {S : ℕ → U64} {r : SnipRand}
    {f0 f1 : LinRow} (h : clientLin d nbits (linMk d x y S) t r = some (f0, f1)) : linFits nbits f1 = true := by
  obtain ⟨w, hw⟩ := lin_wires hd hsm hb hc x hx y
  rw [hw.client, Option.map_eq_some_iff] at h
  obtain ⟨pk, -, h⟩ := h
  cases h
  exact (hw.rows S pk.2 pk.2).2.1

theorem Map.keys_len {α β : Type} {m : Map α} {m' : Map β} (h : m.keys = m'.keys) : m.length = m'.length := by
  have := congrArg List.length h
  simpa [Map.keys] using this

theorem AnyQuery.checks {nbits : ℕ} (q : AnyQuery) {v : q.Val} (hf : q.Fit nbits v) {r : q.Rand} {b : Batch} (h : q.Sends nbits v r b) (y : Shared) :
    y.after nbits b = y.after nbits q.shape := by
  have hp : 0 < 2 ^ nbits := by positivity
  cases q with
  | plain q =>
    cases h
    cases q <;> simp [Query.batch, AnyQuery.shape, Shared.after, Batch.checks]
  | var std p s s2 t =>
    obtain ⟨hok, hb, l, hrc⟩ := hf
    obtain ⟨f0, f1, hcl, rfl⟩ := h
    have e : (admit (varFits nbits) (fill p.key p.a1 f1) []).length =
        (admit (varFits nbits) (fill p.key p.a1 fun _ => ⟨[0#64, 0#64], zeroPacket 1⟩) []).length := by
      refine Map.keys_len (admit_keys_fill p.a1 (fun i => ?_) [] [] rfl)
      rw [clientVar_fits (by omega) hrc (r i) (hcl i)]
      simp [varFits]
    simp only [AnyQuery.shape, Shared.after, Batch.checks, Batch.perCheck, e]
  | lin d c p s t =>
    obtain ⟨hok, hb, ⟨hd, hsm, hc⟩, hrc, hx⟩ := hf
    obtain ⟨f0, f1, hcl, rfl⟩ := h
    have e : (admit (linFits nbits) (fill p.key p.a1 f1) []).length =
        (admit (linFits nbits) (fill p.key p.a1 fun _ => ⟨[], 0#64, [], [], zeroPacket 0⟩) []).length := by
      refine Map.keys_len (admit_keys_fill p.a1 (fun i => ?_) [] [] rfl)
      rw [clientLin_fits hd hsm (by omega) hc (hx i) (hcl i)]
      simp [linFits]
    simp only [AnyQuery.shape, Shared.after, Batch.checks, Batch.perCheck, e]

theorem AnyQuery.round {nbits : ℕ} (q : AnyQuery) {v : q.Val} (r : q.Rand) (hf : q.Fit nbits v) (he : q.Ends v r) {b : Batch} (hb : q.Sends nbits v r b)
    {z0 z1 : Bytes} (ha : b.Arrives nbits z0 z1) (e0 e1 : Env) (ho : ∀ α : Type, IsOrder (e1.ord (α := α))) (hd : Canon e1.draw intModulus) :
    RoundOk nbits (b, { e0 with stream := z0 }, { e1 with stream := z1 }) ∧ b.NoFreq := by
  cases q with
  | plain q =>
    cases hb
    exact ⟨⟨ha, (q.round r hf he e0 e1 ho hd).ok, ho, hd⟩, by cases q <;> trivial⟩
  | var std p s s2 t =>
    obtain ⟨hok, hn, l, hrc⟩ := hf
    obtain ⟨f0, f1, hcl, rfl⟩ := hb
    exact ⟨⟨ha, ⟨hn, _, List.mem_map.2 ⟨.inl ⟨0, hok.pos⟩, hok.arr1.all _, rfl⟩, clientVar_fits (by omega) hrc (r _) (hcl _)⟩, ho, hd⟩, trivial⟩
  | lin d c p s t =>
    obtain ⟨hok, hn, ⟨h1, hsm, hc⟩, hrc, hx⟩ := hf
    obtain ⟨f0, f1, hcl, rfl⟩ := hb
    exact ⟨⟨ha, ⟨hn, h1, hsm, _, List.mem_map.2 ⟨.inl ⟨0, hok.pos⟩, hok.arr1.all _, rfl⟩, clientLin_fits h1 hsm (by omega) hc (hx _) (hcl _)⟩, ho, hd⟩,
      trivial⟩

/-! ## One query -/

/-- Servers that have just started and agree on `y`. -/
def freshAt (y : Shared) : Srv := ⟨⟨RootTables.start, [], y.x, y.uses, y.pos⟩, ⟨[], [], 0⟩⟩

theorem freshAt_ok {y : Shared} (h : Canon y.x intModulus) : InStep y (freshAt y) (freshAt y) :=
  ⟨⟨rfl, h, rfl, rfl, ⟨[], .start⟩, by simp [freshAt]⟩, ⟨rfl, h, rfl, rfl, ⟨[], .start⟩, by simp [freshAt]⟩, ⟨.nil, .nil⟩⟩

theorem Sees0.map {α β α' β' : Type} {P0 : Proc α} {P1 : Proc β} {a : α} {b : β} (h : Pair P0 P1 a b) (f : α → α') (g : β → β') {v : List Seen}
    (hv : Sees0 P0 P1 v) : Sees0 (P0.bind fun r => .ret (f r)) (P1.bind fun r => .ret (g r)) v := by
  obtain ⟨v0, v1, w⟩ := h.recorded
  obtain rfl := w.sees0.unique hv
  exact (w.map f g).sees0

theorem Sees1.map {α β α' β' : Type} {P0 : Proc α} {P1 : Proc β} {a : α} {b : β} (h : Pair P0 P1 a b) (f : α → α') (g : β → β') {v : List Seen}
    (hv : Sees1 P0 P1 v) : Sees1 (P0.bind fun r => .ret (f r)) (P1.bind fun r => .ret (g r)) v := by
  obtain ⟨v0, v1, w⟩ := h.recorded
  obtain rfl := w.sees1.unique hv
  exact (w.map f g).sees1

/-- What a server sees of a VAR or STDDEV query is what it sees of the operation. -/
theorem dispatch_var (c : StoreCfg) (g0 g1 : StoreRng) {nbits : ℕ} (coef : ℕ → ℤ) {std : Bool} {a b : List (Bytes × SnipRow)} {e0 e1 : Env}
    (h : RoundOk nbits (.var std a b, e0, e1)) {y : Shared} {s0 s1 : Srv} (hs : InStep y s0 s1) : ∃ h0 h1 r0 r1, rdInit.run e0.stream = some (h0, r0) ∧
      rdInit.run e1.stream = some (h1, r1) ∧ VarStream a.length r0 a ∧ VarStream b.length r1 b ∧
      ∀ v, (Sees0 (varOp0 e0.fma std nbits a.length r0 coef e0.raw s0.snip) (varOp1 nbits b.length r1 coef e1.raw s1.snip e1.ord) v →
        Sees0 (dispatch0 c g0 nbits coef e0 s0) (dispatch1 c g1 nbits coef e1 s1) v) ∧
        (Sees1 (varOp0 e0.fma std nbits a.length r0 coef e0.raw s0.snip) (varOp1 nbits b.length r1 coef e1.raw s1.snip e1.ord) v →
        Sees1 (dispatch0 c g0 nbits coef e0 s0) (dispatch1 c g1 nbits coef e1 s1) v) := by
  have ha := h.arrives
  have hk := h.ok
  have ho := h.ord
  dsimp only at ha hk ho
  obtain ⟨r0, r1, o0, v0, o1, v1⟩ := ha
  obtain ⟨m0, -, q0, k0⟩ := o0.run
  obtain ⟨m1, -, q1, k1⟩ := o1.run
  obtain ⟨z0, z1, hP, -, -⟩ := var_pair e0.fma std hk.1 o1.1 v0 v1 hk.2 hs.sn0 hs.sn1 coef e0.raw e1.raw e1.ord (ho _)
  refine ⟨_, _, r0, r1, q0, q1, v0, v1, fun v => ⟨fun hv => ?_, fun hv => ?_⟩⟩
  · have := hv.map hP (fun r => (Answer.real r.1, { s0 with snip := r.2 })) fun r => (Answer.real r.1, { s1 with snip := r.2 })
    unfold dispatch0 dispatch1
    cases std <;> simp only [q0, q1, Proc.ofOption, Proc.bind, k0, k1, if_true] <;> exact this
  · have := hv.map hP (fun r => (Answer.real r.1, { s0 with snip := r.2 })) fun r => (Answer.real r.1, { s1 with snip := r.2 })
    unfold dispatch0 dispatch1
    cases std <;> simp only [q0, q1, Proc.ofOption, Proc.bind, k0, k1, if_true] <;> exact this

/-- What a server sees of a LINREG query is what it sees of the operation. -/
theorem dispatch_lin (c : StoreCfg) (g0 g1 : StoreRng) {nbits : ℕ} (coef : ℕ → ℤ) {d : ℕ} {a b : List (Bytes × LinRow)} {e0 e1 : Env}
    (h : RoundOk nbits (.lin d a b, e0, e1)) {y : Shared} {s0 s1 : Srv} (hs : InStep y s0 s1) : ∃ h0 h1 r0 r1, rdInit.run e0.stream = some (h0, r0) ∧
      rdInit.run e1.stream = some (h1, r1) ∧ LinStream d a.length r0 a ∧ LinStream d b.length r1 b ∧
      ∀ v, (Sees0 (linOp0 nbits a.length r0 coef e0.raw e0.junkLin s0.snip) (linOp1 nbits b.length r1 coef e1.raw s1.snip e1.ord) v →
        Sees0 (dispatch0 c g0 nbits coef e0 s0) (dispatch1 c g1 nbits coef e1 s1) v) ∧
        (Sees1 (linOp0 nbits a.length r0 coef e0.raw e0.junkLin s0.snip) (linOp1 nbits b.length r1 coef e1.raw s1.snip e1.ord) v →
        Sees1 (dispatch0 c g0 nbits coef e0 s0) (dispatch1 c g1 nbits coef e1 s1) v) := by
  have ha := h.arrives
  have hk := h.ok
  have ho := h.ord
  dsimp only at ha hk ho
  obtain ⟨r0, r1, o0, v0, o1, v1⟩ := ha
  obtain ⟨m0, -, q0, k0⟩ := o0.run
  obtain ⟨m1, -, q1, k1⟩ := o1.run
  obtain ⟨hn, hd, hsm, hne⟩ := hk
  obtain ⟨C, hC, -⟩ := linCircuit hd hsm
  have h64 : a.length < 2 ^ 64 := lt_trans o0.1 (by norm_num)
  obtain ⟨z0, z1, xa, ya, r, hP, -⟩ := lin_pair hd hsm hn h64 o1.1 v0 v1 hne hs.sn0 hs.sn1 coef e0.raw e1.raw e0.junkLin e1.ord (ho _) hC
  refine ⟨_, _, r0, r1, q0, q1, v0, v1, fun v => ⟨fun hv => ?_, fun hv => ?_⟩⟩
  · have := hv.map hP (fun r => (Answer.lin r.1, { s0 with snip := r.2 })) fun r => (Answer.lin r.1, { s1 with snip := r.2 })
    unfold dispatch0 dispatch1
    simp only [q0, q1, Proc.ofOption, Proc.bind, k0, k1, if_true]; exact this
  · have := hv.map hP (fun r => (Answer.lin r.1, { s0 with snip := r.2 })) fun r => (Answer.lin r.1, { s1 with snip := r.2 })
    unfold dispatch0 dispatch1
    simp only [q0, q1, Proc.ofOption, Proc.bind, k0, k1, if_true]; exact this

theorem fill_count {n : ℕ} {α : Type} (key : Fin n → Bytes) (A : List (Fin n ⊕ Bytes × α)) (f : Fin n → α) : (fill key A f).length = A.length := by
  simp [fill]

theorem AnyQuery.hide0 (c : StoreCfg) (g0 g1 : StoreRng) {nbits : ℕ} (coef : ℕ → ℤ) (q : AnyQuery) {v v' : q.Val} (hf : q.Fit nbits v) (hf' : q.Fit nbits v')
    (h : q.SameAnswer nbits v v') (e0 e1 : Env) (ho : ∀ α : Type, IsOrder (e1.ord (α := α))) (hby : ∀ α : Type, ByKeys (e1.ord (α := α)))
    (hd : Canon e1.draw intModulus) {y : Shared} (hy : Canon y.x intModulus) :
    ∃ e : q.Rand ≃ q.Rand, ∀ r, q.Ends v r → q.Ends v' (e r) ∧ (∃ b b', q.Sends nbits v r b ∧ q.Sends nbits v' (e r) b' ∧ b.SameFirst b') ∧
      ∀ b b' z0 z1 z1', q.Sends nbits v r b → q.Sends nbits v' (e r) b' → b.Arrives nbits z0 z1 → b'.Arrives nbits z0 z1' → ∃ w,
        Sees0 (dispatch0 c g0 nbits coef { e0 with stream := z0 } (freshAt y)) (dispatch1 c g1 nbits coef { e1 with stream := z1 } (freshAt y)) w ∧
        Sees0 (dispatch0 c g0 nbits coef { e0 with stream := z0 } (freshAt y)) (dispatch1 c g1 nbits coef { e1 with stream := z1' } (freshAt y)) w := by
  cases q with
  | plain q =>
    obtain ⟨e, he⟩ := q.rearranged hf hf' h
    refine ⟨e, fun r hr => ⟨(he r).2 hr, ⟨_, _, rfl, rfl, ?_⟩, ?_⟩⟩
    · have := (he r).1 e1.ord hby
      revert this
      cases q <;> simp only [Query.batch, Batch.Same0, Batch.SameFirst] <;> tauto
    · rintro b b' z0 z1 z1' rfl rfl a a'
      obtain ⟨A, w⟩ := dispatch_view c g0 g1 coef (by cases q <;> trivial)
        (AnyQuery.round (.plain q) r hf hr rfl a e0 e1 ho hd).1 (freshAt y) (freshAt y)
      obtain ⟨A', w'⟩ := dispatch_view c g0 g1 coef (by cases q <;> trivial)
        (AnyQuery.round (.plain q) (e r) hf' ((he r).2 hr) rfl a' e0 e1 ho hd).1 (freshAt y) (freshAt y)
      refine ⟨_, w.sees0, ?_⟩
      have := w'.sees0
      rw [seen0_same ((he r).1 e1.ord hby) { e0 with stream := z0 }]
      exact this
  | var std p s s2 t =>
    obtain ⟨hok, hn, l, hrc⟩ := id hf
    have hs := freshAt_ok hy
    obtain ⟨e, -, H⟩ := C64_var_server0 e0.fma std hn hok.pos hok.arr0 hok.arr1 hok.small v v' s s2 h.1 h.2 hrc hs.sn0 hs.sn1 coef e0.raw e1.raw e1.ord
      (ho _) (hby _)
    refine ⟨Equiv.piCongrRight e, fun r _ => ⟨trivial, ?_, ?_⟩⟩
    · obtain ⟨f0, f1, f1', h1, h2, -⟩ := H r
      exact ⟨_, _, ⟨f0, f1, h1, rfl⟩, ⟨f0, f1', h2, rfl⟩, rfl, rfl⟩
    · intro b b' z0 z1 z1' sb sb' a a'
      obtain ⟨f0, f1, f1', h1, h2, H⟩ := H r
      have rb := (AnyQuery.round (.var std p s s2 t) r hf trivial sb a e0 e1 ho hd).1
      have rb' := (AnyQuery.round (.var std p s s2 t) _ hf' trivial sb' a' e0 e1 ho hd).1
      obtain ⟨F0, F1, hF, rfl⟩ := sb
      obtain ⟨F0', F1', hF', rfl⟩ := sb'
      have E : ∀ i, F0 i = f0 i ∧ F1 i = f1 i := fun i => by
        have := (hF i).symm.trans (h1 i)
        simp only [Option.some.injEq, Prod.mk.injEq, true_and] at this
        exact this
      have E' : ∀ i, F0' i = f0 i ∧ F1' i = f1' i := fun i => by
        have := (hF' i).symm.trans (h2 i)
        simp only [Option.some.injEq, Prod.mk.injEq, true_and] at this
        exact this
      obtain rfl : F0 = f0 := funext fun i => (E i).1
      obtain rfl : F1 = f1 := funext fun i => (E i).2
      obtain rfl : F0' = F0 := funext fun i => (E' i).1
      obtain rfl : F1' = f1' := funext fun i => (E' i).2
      obtain ⟨d0, _, r0, r1, i0, -, v0, v1, K⟩ := dispatch_var c g0 g1 coef rb hs
      obtain ⟨d0', _, r0', r1', i0', -, v0', v1', K'⟩ := dispatch_var c g0 g1 coef rb' hs
      have := i0.symm.trans i0'
      simp only [Option.some.injEq, Prod.mk.injEq] at this
      obtain ⟨-, rfl⟩ := this
      simp only [fill_count] at v0 v1 v0' v1' K K'
      obtain ⟨w, w1, w2⟩ := H _ _ _ v0 v1 v1'
      exact ⟨w, (K w).1 w1, (K' w).1 w2⟩
  | lin d C p s t =>
    obtain ⟨hok, hn, ⟨h1, hsm, hc⟩, ⟨l, hrc⟩, hx⟩ := id hf
    have hs := freshAt_ok hy
    obtain ⟨e, -, H⟩ := C64_lin_server0 h1 hsm hn hok.pos hc hok.arr0 hok.arr1 hok.small (fun i => (v i).1) (fun i => (v' i).1) (fun i => (v i).2)
      (fun i => (v' i).2) hx hf'.2.2.2.2 s h hrc hs.sn0 hs.sn1 coef e0.raw e1.raw e0.junkLin e1.ord (ho _) (hby _)
    refine ⟨Equiv.piCongrRight e, fun r _ => ⟨trivial, ?_, ?_⟩⟩
    · obtain ⟨f0, f1, f1', h1, h2, -⟩ := H r
      exact ⟨_, _, ⟨f0, f1, h1, rfl⟩, ⟨f0, f1', h2, rfl⟩, rfl, rfl⟩
    · intro b b' z0 z1 z1' sb sb' a a'
      obtain ⟨f0, f1, f1', h1, h2, H⟩ := H r
      have rb := (AnyQuery.round (.lin d C p s t) r hf trivial sb a e0 e1 ho hd).1
      have rb' := (AnyQuery.round (.lin d C p s t) _ hf' trivial sb' a' e0 e1 ho hd).1
      obtain ⟨F0, F1, hF, rfl⟩ := sb
      obtain ⟨F0', F1', hF', rfl⟩ := sb'
      have E : ∀ i, F0 i = f0 i ∧ F1 i = f1 i := fun i => by
        have := (hF i).symm.trans (h1 i)
        simp only [Option.some.injEq, Prod.mk.injEq] at this
        exact this
      have E' : ∀ i, F0' i = f0 i ∧ F1' i = f1' i := fun i => by
        have := (hF' i).symm.trans (h2 i)
        simp only [Option.some.injEq, Prod.mk.injEq] at this
        exact this
      obtain rfl : F0 = f0 := funext fun i => (E i).1
      obtain rfl : F1 = f1 := funext fun i => (E i).2
      obtain rfl : F0' = F0 := funext fun i => (E' i).1
      obtain rfl : F1' = f1' := funext fun i => (E' i).2
      obtain ⟨d0, _, r0, r1, i0, -, v0, v1, K⟩ := dispatch_lin c g0 g1 coef rb hs
      obtain ⟨d0', _, r0', r1', i0', -, v0', v1', K'⟩ := dispatch_lin c g0 g1 coef rb' hs
      have := i0.symm.trans i0'
      simp only [Option.some.injEq, Prod.mk.injEq] at this
      obtain ⟨-, rfl⟩ := this
      simp only [fill_count] at v0 v1 v0' v1' K K'
      obtain ⟨w, w1, w2⟩ := H _ _ _ v0 v1 v1'
      exact ⟨w, (K w).1 w1, (K' w).1 w2⟩

/-! ## The session -/

/-- Query by query: `y` when a query begins. -/
theorem hidden_map {ι : Type} {sv : Bool} {c : StoreCfg} {g0 g1 : StoreRng} {nbits : ℕ} {coef : ℕ → ℤ} {F : ι → (Batch × Env × Env) × (Batch × Env × Env)}
    {step : Shared → ι → Shared} {l : List ι} {y : Shared}
    (h : ∀ l1 i l2, l = l1 ++ i :: l2 → ∀ z, z = (l1.foldl step y).refresh (F i).1.2.2.draw →
      RoundOk nbits (F i).1 ∧ RoundOk nbits (F i).2 ∧ (F i).1.1.NoFreq ∧ (F i).2.1.NoFreq ∧
      (F i).2.2.1.draw = (F i).1.2.1.draw ∧ (F i).2.2.2.draw = (F i).1.2.2.draw ∧ z.after nbits (F i).2.1 = z.after nbits (F i).1.1 ∧
      step (l1.foldl step y) i = z.after nbits (F i).1.1 ∧
      ∃ s0 s1 v, InStep z s0 s1 ∧ SeesBy sv (dispatch0 c g0 nbits coef (F i).1.2.1 s0) (dispatch1 c g1 nbits coef (F i).1.2.2 s1) v ∧
        SeesBy sv (dispatch0 c g0 nbits coef (F i).2.2.1 s0) (dispatch1 c g1 nbits coef (F i).2.2.2 s1) v) :
    Hidden sv c g0 g1 nbits coef y (l.map F) := by
  induction l generalizing y with
  | nil => trivial
  | cons i l ih =>
    obtain ⟨h1, h2, h3, h4, h5, h6, h7, h8, h9⟩ := h [] i l rfl _ rfl
    refine ⟨h1, h2, h3, h4, h5, h6, h7, h9, ?_⟩
    have h8 : step y i = _ := h8
    rw [List.foldl_nil] at h8
    rw [← h8]
    exact ih fun l1 j l2 e => h (i :: l1) j l2 (by rw [e]; rfl)

theorem finRange_split {k : ℕ} {l1 l2 : List (Fin k)} {i : Fin k} (h : List.finRange k = l1 ++ i :: l2) : l1 = (List.finRange k).take i := by
  have hl := congrArg List.length h
  rw [List.length_finRange, List.length_append, List.length_cons] at hl
  have hi : (List.finRange k)[l1.length]'(by rw [List.length_finRange]; omega) = i := by
    simp only [h, List.getElem_append_right (le_refl _), Nat.sub_self, List.getElem_cons_zero]
  rw [List.getElem_finRange] at hi
  have : l1.length = (i : ℕ) := by rw [← hi]; rfl
  rw [h, ← this, List.take_left']
  rfl

/-- What the servers share before query `i`. -/
def beforeQuery {k : ℕ} (nbits : ℕ) (q : Fin k → AnyQuery) (e1 : Fin k → Env) (y : Shared) (l : List (Fin k)) : Shared :=
  l.foldl (fun y j => (y.refresh (e1 j).draw).after nbits (q j).shape) y

theorem refreshed_canon {y : Shared} (hy : Canon y.x intModulus) {d : ℤ} (hd : Canon d intModulus) : Canon (y.refresh d).x intModulus := by
  unfold Shared.refresh
  split_ifs <;> assumption

theorem beforeQuery_canon {k : ℕ} {nbits : ℕ} {q : Fin k → AnyQuery} {e1 : Fin k → Env} (hd : ∀ i, Canon (e1 i).draw intModulus) {y : Shared}
    (hy : Canon y.x intModulus) (l : List (Fin k)) : Canon (beforeQuery nbits q e1 y l).x intModulus := by
  induction l generalizing y with
  | nil => exact hy
  | cons i l ih => exact ih (y := (y.refresh (e1 i).draw).after nbits (q i).shape) (refreshed_canon hy (hd i))

/-- C78 for server 0 and honest clients, all operations but FREQ. In VAR, STDDEV and LINREG others may take part, with any submissions. Two sessions
of queries whose answers are the same (for VAR and STDDEV also the sums of values and squares, for LINREG the sums of products) look the same to
server 0, up to a rearrangement of the random words and draws of the clients, query by query, one to one. Server 0 gets the same submissions. -/
theorem C78_server0_any (c : StoreCfg) {g0 g1 : StoreRng} (hg : GoodRng intModulus g0) {nbits : ℕ} (coef : ℕ → ℤ) {k : ℕ} (q : Fin k → AnyQuery)
    (v v' : ∀ i, (q i).Val) (hf : ∀ i, (q i).Fit nbits (v i)) (hf' : ∀ i, (q i).Fit nbits (v' i))
    (hsame : ∀ i, (q i).SameAnswer nbits (v i) (v' i)) (e0 e1 : Fin k → Env) (ho : ∀ i (α : Type), IsOrder ((e1 i).ord (α := α)))
    (hby : ∀ i (α : Type), ByKeys ((e1 i).ord (α := α))) (hd : ∀ i, Canon (e1 i).draw intModulus) {y : Shared} {s0 s1 : Srv} (hs : InStep y s0 s1) :
    ∃ e : ∀ i, (q i).Rand ≃ (q i).Rand, ∀ r : ∀ i, (q i).Rand, (∀ i, (q i).Ends (v i) (r i)) →
      (∃ b b' : Fin k → Batch, ∀ i, (q i).Sends nbits (v i) (r i) (b i) ∧ (q i).Sends nbits (v' i) (e i (r i)) (b' i) ∧ (b i).SameFirst (b' i)) ∧
      ∀ (b b' : Fin k → Batch) (z0 z1 z1' : Fin k → Bytes), (∀ i, (q i).Sends nbits (v i) (r i) (b i)) → (∀ i, (q i).Sends nbits (v' i) (e i (r i)) (b' i)) →
        (∀ i, (b i).Arrives nbits (z0 i) (z1 i)) → (∀ i, (b' i).Arrives nbits (z0 i) (z1' i)) → ∃ w,
        Sees0 (session false c g0 nbits coef ((List.finRange k).map fun i => { e0 i with stream := z0 i }) s0)
          (session true c g1 nbits coef ((List.finRange k).map fun i => { e1 i with stream := z1 i }) s1) w ∧
        Sees0 (session false c g0 nbits coef ((List.finRange k).map fun i => { e0 i with stream := z0 i }) s0)
          (session true c g1 nbits coef ((List.finRange k).map fun i => { e1 i with stream := z1' i }) s1) w := by
  have hy := hs.sn0.canon
  have hc : ∀ i : Fin k, Canon ((beforeQuery nbits q e1 y ((List.finRange k).take i)).refresh (e1 i).draw).x intModulus := fun i =>
    refreshed_canon (beforeQuery_canon hd hy _) (hd i)
  choose e he using fun i => (q i).hide0 c g0 g1 coef (hf i) (hf' i) (hsame i) (e0 i) (e1 i) (ho i) (hby i) (hd i) (hc i)
  refine ⟨e, fun r hr => ⟨?_, fun b b' z0 z1 z1' hb hb' ha ha' => ?_⟩⟩
  · choose b b' h using fun i => (he i (r i) (hr i)).2.1
    exact ⟨b, b', h⟩
  · have hH : Hidden false c g0 g1 nbits coef y ((List.finRange k).map fun i =>
        ((b i, { e0 i with stream := z0 i }, { e1 i with stream := z1 i }), (b' i, { e0 i with stream := z0 i }, { e1 i with stream := z1' i }))) := by
      refine hidden_map (step := fun y j => (y.refresh (e1 j).draw).after nbits (q j).shape) ?_
      rintro l1 i l2 hl z rfl
      obtain rfl := finRange_split hl
      obtain ⟨he1, -, H⟩ := he i (r i) (hr i)
      obtain ⟨r1, n1⟩ := (q i).round (r i) (hf i) (hr i) (hb i) (ha i) (e0 i) (e1 i) (ho i) (hd i)
      obtain ⟨r2, n2⟩ := (q i).round (e i (r i)) (hf' i) he1 (hb' i) (ha' i) (e0 i) (e1 i) (ho i) (hd i)
      obtain ⟨w, w1, w2⟩ := H _ _ _ _ _ (hb i) (hb' i) (ha i) (ha' i)
      refine ⟨r1, r2, n1, n2, rfl, rfl, ?_, ?_, _, _, w, freshAt_ok (hc i), w1, w2⟩
      · rw [(q i).checks (hf i) (hb i), (q i).checks (hf' i) (hb' i)]
      · rw [(q i).checks (hf i) (hb i)]
    obtain ⟨A, B, A', B', v0, v1, v0', v1', W, W', E⟩ := hidden_views false c hg coef _ hH hs hs rfl rfl
    simp only [List.map_map, Function.comp_def] at W W'
    have E : v0 = v0' := E
    exact ⟨v0, W.sees0, E ▸ W'.sees0⟩

/-! ## Examples -/

/-- Three honest clients. -/
def threeGuests : Guests SnipRow :=
  ⟨3, fun i => List.replicate 32 (BitVec.ofNat 8 i.1), (List.finRange 3).map Sum.inl, (List.finRange 3).map Sum.inl⟩

theorem threeGuests_ok : threeGuests.Ok := by
  have h : Arrives threeGuests.key threeGuests.a0 := by
    refine ⟨?_, fun i => List.mem_map.2 ⟨i, List.mem_finRange i, rfl⟩, fun e he => ?_⟩
    · show Function.Injective fun i : Fin 3 => List.replicate 32 (BitVec.ofNat 8 i.1)
      decide
    · have he : Sum.inr e ∈ (List.finRange 3).map (Sum.inl : Fin 3 → Fin 3 ⊕ Bytes × SnipRow) := he
      simp at he
  exact ⟨by show 0 < 3; norm_num, h, h, by show ((List.finRange 3).map Sum.inl).length < 2 ^ 32; simp⟩

theorem threeGuests_streams {t : RootTables} {l : List ℕ} (hrc : RootCalls (2 :: l) t) (v : Fin 3 → U64) (r : Fin 3 → Draws varCircuit)
    {f0 f1 : Fin 3 → SnipRow} (h : ∀ i, clientVar 4 (v i) 0#64 0#64 t (r i).1 = some (v i % (1#64 <<< 4), f0 i, f1 i)) :
    (∃ s0, VarStream 3 s0 (fill threeGuests.key threeGuests.a0 f0)) ∧ ∃ s1, VarStream 3 s1 (fill threeGuests.key threeGuests.a1 f1) := by
  choose w hw using fun i => clientVar_wires (by omega : 4 ≤ 31) (v i)
  obtain ⟨⟨g0, g1, hg⟩, hc⟩ := var_rows v (fun _ => 0#64) (fun _ => 0#64) hw hrc r
  have E : ∀ i, f0 i = g0 i ∧ f1 i = g1 i := fun i => by
    have := (h i).symm.trans (hc g0 g1 hg i)
    simp only [Option.some.injEq, Prod.mk.injEq, true_and] at this
    exact this
  obtain rfl : f0 = g0 := funext fun i => (E i).1
  obtain rfl : f1 = g1 := funext fun i => (E i).2
  have := var_streams (key := fun i : Fin 3 => List.replicate 32 (BitVec.ofNat 8 i.1)) hg (fun i => by simp [pkLength]) (List.finRange 3)
  simp only [List.length_finRange] at this
  exact this

/-- The values 1, 5, 6 and 2, 3, 7 have the same sum and sum of squares. All that the clients may send can arrive. -/
example : ∃ t, let q := AnyQuery.var false threeGuests (fun _ => 0#64) (fun _ => 0#64) t
    let v : q.Val := (![1#64, 5#64, 6#64] : Fin 3 → U64)
    let v' : q.Val := (![2#64, 3#64, 7#64] : Fin 3 → U64)
    q.Fit 4 v ∧ q.Fit 4 v' ∧ q.SameAnswer 4 v v' ∧ v ≠ v' ∧
    ∀ r r' b b', q.Sends 4 v r b → q.Sends 4 v' r' b' → b.SameFirst b' → ∃ z0 z1 z1', b.Arrives 4 z0 z1 ∧ b'.Arrives 4 z0 z1' := by
  obtain ⟨t, ht⟩ := C30_sizes (c := varCircuit) (by decide) [] _ .start
  refine ⟨t, ⟨threeGuests_ok, by norm_num, [], ht⟩, ⟨threeGuests_ok, by norm_num, [], ht⟩, ⟨?_, ?_⟩, ?_, ?_⟩
  · show ∑ i : Fin 3, ((![1#64, 5#64, 6#64] : Fin 3 → U64) i).toNat % 2 ^ 4 ≡ ∑ i : Fin 3, ((![2#64, 3#64, 7#64] : Fin 3 → U64) i).toNat % 2 ^ 4 [MOD intModulus]
    decide
  · show ∑ i : Fin 3, (((![1#64, 5#64, 6#64] : Fin 3 → U64) i).toNat % 2 ^ 4) ^ 2 ≡
      ∑ i : Fin 3, (((![2#64, 3#64, 7#64] : Fin 3 → U64) i).toNat % 2 ^ 4) ^ 2 [MOD intModulus]
    decide
  · show (![1#64, 5#64, 6#64] : Fin 3 → U64) ≠ ![2#64, 3#64, 7#64]
    decide
  · rintro r r' b b' ⟨f0, f1, h, rfl⟩ ⟨f0', f1', h', rfl⟩ ⟨-, hfirst⟩
    obtain ⟨⟨s0, h0⟩, s1, h1⟩ := threeGuests_streams ht _ r h
    obtain ⟨-, s1', h1'⟩ := threeGuests_streams ht _ r' h'
    have hl : ∀ f : Fin 3 → SnipRow, (fill threeGuests.key threeGuests.a0 f).length = 3 := fun f => fill_count (α := SnipRow) threeGuests.key _ f
    have hl1 : ∀ f : Fin 3 → SnipRow, (fill threeGuests.key threeGuests.a1 f).length = 3 := fun f => fill_count (α := SnipRow) threeGuests.key _ f
    have op : ∀ s, Opens 7#32 3 none (encInit ⟨7#32, 3#32, 0#32⟩ ++ s) s := fun s => ⟨by norm_num, 0, by simp, rfl⟩
    refine ⟨encInit ⟨7#32, 3#32, 0#32⟩ ++ s0, encInit ⟨7#32, 3#32, 0#32⟩ ++ s1, encInit ⟨7#32, 3#32, 0#32⟩ ++ s1', ⟨s0, s1, ?_⟩, s0, s1', ?_⟩
    · exact ⟨(hl f0).symm ▸ op s0, (hl f0).symm ▸ h0, (hl1 f1).symm ▸ op s1, (hl1 f1).symm ▸ h1⟩
    · rw [hfirst]
      exact ⟨(hl f0).symm ▸ op s0, (hl f0).symm ▸ h0, (hl1 f1').symm ▸ op s1', (hl1 f1').symm ▸ h1'⟩

end Verif

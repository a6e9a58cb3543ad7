import Verif.PropsViewField

/-!
# C78, continued: what server 1 sees of sessions with VAR, STDDEV and LINREG

Here the clients' words for the shares, and the masks of server 0, are among the random draws.
-/

namespace Verif

/-! ## Queries -/

/-- A query: BIT_SUM, INT_SUM, AND, OR, MAX, MIN or an unknown message, with any submissions; or VAR, STDDEV, LINREG with honest clients and others. -/
inductive OpenQuery where
  | plain
  | var (std : Bool) (p : Guests SnipRow) (t : RootTables)
  | lin (d : ℕ) (c : Circuit) (p : Guests LinRow) (t : RootTables)

/-- The values: all submissions, or the values of the honest clients. -/
def OpenQuery.Val : OpenQuery → Type
  | .plain => Batch
  | .var _ p _ => Fin p.n → U64
  | .lin _ _ p _ => Fin p.n → List U64 × U64

/-- The random draws: of server 0 for its masks, and of the clients for shares and packets. -/
def OpenQuery.Rand : OpenQuery → Type
  | .plain => Masks
  | .var _ p _ => ((Fin p.n → U64) × (Fin p.n → U64)) × (ℕ → ℕ → ℕ → Mask) × (Fin p.n → Draws varCircuit)
  | .lin _ c p _ => (Fin p.n → ℕ → U64) × (ℕ → ℕ → ℕ → Mask) × (Fin p.n → Draws c)

/-- What the clients send (`ModelClientSnip`, `ModelLinReg`), together with what the others send. -/
def OpenQuery.Sends (nbits : ℕ) : (q : OpenQuery) → q.Val → q.Rand → Batch → Prop
  | .plain, v, _, b => b = v
  | .var std p t, v, r, b => ∃ f0 f1, (∀ i, clientVar nbits (v i) (r.1.1 i) (r.1.2 i) t (r.2.2 i).1 = some (v i % (1#64 <<< nbits), f0 i, f1 i)) ∧
      b = .var std (fill p.key p.a0 f0) (fill p.key p.a1 f1)
  | .lin d _ p t, v, r, b => ∃ f0 f1, (∀ i, clientLin d nbits (linMk d (v i).1 (v i).2 (r.1 i)) t (r.2.2 i).1 = some (f0 i, f1 i)) ∧
      b = .lin d (fill p.key p.a0 f0) (fill p.key p.a1 f1)

/-- Server 0 with its masks. -/
def OpenQuery.masked : (q : OpenQuery) → q.Rand → Env → Env
  | .plain, m, e => e.masked m
  | .var _ _ _, r, e => { e with raw := fun i j k => (r.2.1 i j k).1 }
  | .lin _ _ _ _, r, e => { e with raw := fun i j k => (r.2.1 i j k).1 }

/-- What is required of a query. -/
def OpenQuery.Fit (nbits : ℕ) : (q : OpenQuery) → q.Val → Prop
  | .plain, b => Batch.Plain b ∧ Batch.Ok nbits b
  | .var _ p t, _ => p.Ok ∧ nbits ≤ 24 ∧ ∃ l, RootCalls (2 :: l) t
  | .lin d c p t, v => p.Ok ∧ nbits ≤ 24 ∧ (1 ≤ d ∧ linMul d < 2 ^ 18 ∧ checkLinReg intModulus d = some c) ∧ (∃ l, RootCalls (npow2 (linMul d) :: l) t) ∧
      ∀ i, (v i).1.length = d - 1

/-- Specification: what may differ. In the plain operations the values under the same keys at server 0; in the others the values of the honest
clients, in any way. -/
def OpenQuery.Alike (nbits : ℕ) : (q : OpenQuery) → q.Val → q.Val → Prop
  | .plain, b, b' => Batch.Same1 nbits b b'
  | _, _, _ => True

/-- Two batches with the same submissions for server 1. -/
def Batch.SameSecond : Batch → Batch → Prop
  | .idle _, .idle _ => True
  | .bitSum _ b, .bitSum _ b' => b' = b
  | .intSum _ b, .intSum _ b' => b' = b
  | .xor _ _ b, .xor _ _ b' => b' = b
  | .max _ _ _ b, .max _ _ _ b' => b' = b
  | .var t _ b, .var t' _ b' => t' = t ∧ b' = b
  | .lin d _ b, .lin d' _ b' => d' = d ∧ b' = b
  | _, _ => False

/-! ## One query -/

/-- A batch with as many checks. -/
def OpenQuery.shape : OpenQuery → Batch
  | .plain => .idle 0
  | .var std p _ => .var std [] (fill p.key p.a1 fun _ => ⟨[0#64, 0#64], zeroPacket 1⟩)
  | .lin d _ p _ => .lin d [] (fill p.key p.a1 fun _ => ⟨[], 0#64, [], [], zeroPacket 0⟩)

theorem OpenQuery.checks {nbits : ℕ} (q : OpenQuery) {v : q.Val} (hf : q.Fit nbits v) {r : q.Rand} {b : Batch} (h : q.Sends nbits v r b) (y : Shared) :
    y.after nbits b = y.after nbits q.shape := by
  have hp : 0 < 2 ^ nbits := by positivity
  cases q with
  | plain =>
    cases h
    obtain ⟨hv, -⟩ := hf
    cases b <;> simp [OpenQuery.shape, Shared.after, Batch.checks] <;> exact hv.elim
  | var std p t =>
    obtain ⟨hok, hb, l, hrc⟩ := hf
    obtain ⟨f0, f1, hcl, rfl⟩ := h
    have e : (admit (varFits nbits) (fill p.key p.a1 f1) []).length =
        (admit (varFits nbits) (fill p.key p.a1 fun _ => ⟨[0#64, 0#64], zeroPacket 1⟩) []).length := by
      refine Map.keys_len (admit_keys_fill p.a1 (fun i => ?_) [] [] rfl)
      rw [clientVar_fits (by omega) hrc (r.2.2 i) (hcl i)]
      simp [varFits]
    simp only [OpenQuery.shape, Shared.after, Batch.checks, Batch.perCheck, e]
  | lin d c p t =>
    obtain ⟨hok, hb, ⟨hd, hsm, hc⟩, hrc, hx⟩ := hf
    obtain ⟨f0, f1, hcl, rfl⟩ := h
    have e : (admit (linFits nbits) (fill p.key p.a1 f1) []).length =
        (admit (linFits nbits) (fill p.key p.a1 fun _ => ⟨[], 0#64, [], [], zeroPacket 0⟩) []).length := by
      refine Map.keys_len (admit_keys_fill p.a1 (fun i => ?_) [] [] rfl)
      rw [clientLin_fits hd hsm (by omega) hc (hx i) (hcl i)]
      simp [linFits]
    simp only [OpenQuery.shape, Shared.after, Batch.checks, Batch.perCheck, e]

theorem OpenQuery.round {nbits : ℕ} (q : OpenQuery) {v : q.Val} (r : q.Rand) (hf : q.Fit nbits v) {b : Batch} (hb : q.Sends nbits v r b)
    {z0 z1 : Bytes} (ha : b.Arrives nbits z0 z1) (e0 e1 : Env) (h0 : e0.stream = z0) (ho : ∀ α : Type, IsOrder (e1.ord (α := α)))
    (hd : Canon e1.draw intModulus) : RoundOk nbits (b, e0, { e1 with stream := z1 }) ∧ b.NoFreq := by
  subst h0
  cases q with
  | plain =>
    cases hb
    refine ⟨⟨ha, hf.2, ho, hd⟩, ?_⟩
    have := hf.1
    cases b <;> trivial
  | var std p t =>
    obtain ⟨hok, hn, l, hrc⟩ := hf
    obtain ⟨f0, f1, hcl, rfl⟩ := hb
    exact ⟨⟨ha, ⟨hn, _, List.mem_map.2 ⟨.inl ⟨0, hok.pos⟩, hok.arr1.all _, rfl⟩, clientVar_fits (by omega) hrc (r.2.2 _) (hcl _)⟩, ho, hd⟩, trivial⟩
  | lin d c p t =>
    obtain ⟨hok, hn, ⟨h1, hsm, hc⟩, hrc, hx⟩ := hf
    obtain ⟨f0, f1, hcl, rfl⟩ := hb
    exact ⟨⟨ha, ⟨hn, h1, hsm, _, List.mem_map.2 ⟨.inl ⟨0, hok.pos⟩, hok.arr1.all _, rfl⟩, clientLin_fits h1 hsm (by omega) hc (hx _) (hcl _)⟩, ho, hd⟩,
      trivial⟩

/-- Changing the masks by constants is one to one. -/
def Masks.shiftEquiv (d : Shift) : Masks ≃ Masks where
  toFun m := m.shift d
  invFun m := ⟨fun i => m.bit i - d.bit i, fun i j k => m.word i j k - d.word i k⟩
  left_inv m := by simp [Masks.shift]
  right_inv m := by simp [Masks.shift]

/-- So is XORing with fixed words. -/
def xorEquiv {ι : Type} (d : ι → U64) : (ι → U64) ≃ (ι → U64) where
  toFun f i := f i ^^^ d i
  invFun f i := f i ^^^ d i
  left_inv f := by funext i; simp [BitVec.xor_assoc]
  right_inv f := by funext i; simp [BitVec.xor_assoc]

/-- Changes of masks, place by place. -/
def maskEquiv (σ : ℕ → ℕ → ℕ → (Mask ≃ Mask)) : (ℕ → ℕ → ℕ → Mask) ≃ (ℕ → ℕ → ℕ → Mask) :=
  Equiv.piCongrRight fun i => Equiv.piCongrRight fun j => Equiv.piCongrRight fun k => σ i j k

theorem OpenQuery.hide1 (c : StoreCfg) (g0 g1 : StoreRng) {nbits : ℕ} (coef : ℕ → ℤ) (q : OpenQuery) {v v' : q.Val} (hf : q.Fit nbits v) (hf' : q.Fit nbits v')
    (h : q.Alike nbits v v') (e0 e1 : Env) (ho : ∀ α : Type, IsOrder (e1.ord (α := α))) (hby : ∀ α : Type, ByKeys (e1.ord (α := α)))
    (hd : Canon e1.draw intModulus) {y : Shared} (hy : Canon y.x intModulus) :
    ∃ e : q.Rand ≃ q.Rand, ∀ r, (∃ b b', q.Sends nbits v r b ∧ q.Sends nbits v' (e r) b' ∧ b.SameSecond b') ∧
      ∀ b b' z0 z0' z1, q.Sends nbits v r b → q.Sends nbits v' (e r) b' → b.Arrives nbits z0 z1 → b'.Arrives nbits z0' z1 → ∃ w,
        Sees1 (dispatch0 c g0 nbits coef (q.masked r { e0 with stream := z0 }) (freshAt y))
          (dispatch1 c g1 nbits coef { e1 with stream := z1 } (freshAt y)) w ∧
        Sees1 (dispatch0 c g0 nbits coef (q.masked (e r) { e0 with stream := z0' }) (freshAt y))
          (dispatch1 c g1 nbits coef { e1 with stream := z1 } (freshAt y)) w := by
  cases q with
  | plain =>
    obtain ⟨d, hd'⟩ := seen1_same h e0 e0 e1.ord
    refine ⟨Masks.shiftEquiv d, fun r => ⟨⟨_, _, rfl, rfl, ?_⟩, ?_⟩⟩
    · have h : Batch.Same1 nbits v v' := h
      change Batch at v v'
      cases v <;> cases v' <;> first | exact h.elim | trivial | exact h.1.symm
    · rintro b b' z0 z0' z1 rfl rfl a a'
      obtain ⟨A, w⟩ := dispatch_view c g0 g1 coef hf.1
        (OpenQuery.round .plain r hf rfl a ({ e0 with stream := z0 }.masked r) e1 rfl ho hd).1 (freshAt y) (freshAt y)
      obtain ⟨A', w'⟩ := dispatch_view c g0 g1 coef hf'.1
        (OpenQuery.round .plain (Masks.shift r d) hf' rfl a' ({ e0 with stream := z0' }.masked (Masks.shift r d)) e1 rfl ho hd).1 (freshAt y) (freshAt y)
      refine ⟨_, w.sees1, ?_⟩
      have h1 := w'.sees1
      have h2 := hd' r
      have k1 : ∀ (b : Batch) z, b.seen1 nbits ({ e0 with stream := z }.masked r) e1.ord = b.seen1 nbits (e0.masked r) e1.ord := fun b z => by
        cases b <;> rfl
      have k2 : ∀ (b : Batch) z, b.seen1 nbits ({ e0 with stream := z }.masked (Masks.shift r d)) e1.ord = b.seen1 nbits (e0.masked (Masks.shift r d)) e1.ord :=
        fun b z => by cases b <;> rfl
      simp only [k1]
      rw [h2, ← k2 _ z0']
      exact h1
  | var std p t =>
    obtain ⟨hok, hn, l, hrc⟩ := id hf
    have hs := freshAt_ok hy
    obtain ⟨d, d2, H⟩ := C64_var_server1_partial e0.fma std hn hok.pos hok.arr0 hok.arr1 hok.small v v' hrc hs.sn0 hs.sn1 coef e1.raw e1.ord (ho _) (hby _)
    choose σ H using H
    choose e _ H using H
    refine ⟨Equiv.prodShear ((xorEquiv d).prodCongr (xorEquiv d2)) fun s => Equiv.prodShear (maskEquiv (σ s.1 s.2)) fun m =>
      Equiv.piCongrRight (e s.1 s.2 m), ?_⟩
    rintro ⟨⟨s, s2⟩, m, r⟩
    obtain ⟨f0, f0', f1, h1, h2, H⟩ := H s s2 m r
    refine ⟨⟨_, _, ⟨f0, f1, h1, rfl⟩, ⟨f0', f1, h2, rfl⟩, rfl, rfl⟩, ?_⟩
    intro b b' z0 z0' z1 sb sb' a a'
    have rb := (OpenQuery.round (.var std p t) _ hf sb a (OpenQuery.masked (.var std p t) ((s, s2), m, r) { e0 with stream := z0 }) e1 rfl ho hd).1
    have rb' := (OpenQuery.round (.var std p t) _ hf' sb' a' (OpenQuery.masked (.var std p t) ((s, s2), maskEquiv (σ s s2) m, r) { e0 with stream := z0' }) e1
      rfl ho hd).1
    obtain ⟨F0, F1, hF, rfl⟩ := sb
    obtain ⟨F0', F1', hF', rfl⟩ := sb'
    have E : ∀ i, F0 i = f0 i ∧ F1 i = f1 i := fun i => by
      have := (hF i).symm.trans (h1 i)
      simp only [Option.some.injEq, Prod.mk.injEq, true_and] at this
      exact this
    have E' : ∀ i, F0' i = f0' i ∧ F1' i = f1 i := fun i => by
      have := (hF' i).symm.trans (h2 i)
      simp only [Option.some.injEq, Prod.mk.injEq, true_and] at this
      exact this
    obtain rfl : F0 = f0 := funext fun i => (E i).1
    obtain rfl : F1 = f1 := funext fun i => (E i).2
    obtain rfl : F0' = f0' := funext fun i => (E' i).1
    obtain rfl : F1' = F1 := funext fun i => (E' i).2
    obtain ⟨_, _, r0, r1, -, i1, v0, v1, K⟩ := dispatch_var c g0 g1 coef rb hs
    obtain ⟨_, _, r0', r1', -, i1', v0', v1', K'⟩ := dispatch_var c g0 g1 coef rb' hs
    have := i1.symm.trans i1'
    simp only [Option.some.injEq, Prod.mk.injEq] at this
    obtain ⟨-, rfl⟩ := this
    simp only [fill_count] at v0 v1 v0' v1' K K'
    obtain ⟨w, w1, w2⟩ := H _ _ _ v0 v0' v1
    exact ⟨w, (K w).2 w1, (K' w).2 w2⟩
  | lin d C p t =>
    obtain ⟨hok, hn, ⟨h1, hsm, hc⟩, ⟨l, hrc⟩, hx⟩ := id hf
    have hs := freshAt_ok hy
    obtain ⟨δ, H⟩ := C64_lin_server1_partial h1 hsm hn hok.pos hc hok.arr0 hok.arr1 hok.small (fun i => (v i).1) (fun i => (v' i).1) (fun i => (v i).2)
      (fun i => (v' i).2) hx hf'.2.2.2.2 hrc hs.sn0 hs.sn1 coef e1.raw e0.junkLin e1.ord (ho _) (hby _)
    choose σ H using H
    choose e _ H using H
    refine ⟨Equiv.prodShear (Equiv.piCongrRight fun i => xorEquiv (δ i)) fun s => Equiv.prodShear (maskEquiv (σ s)) fun m =>
      Equiv.piCongrRight (e s m), ?_⟩
    rintro ⟨s, m, r⟩
    obtain ⟨f0, f0', f1, h1, h2, H⟩ := H s m r
    refine ⟨⟨_, _, ⟨f0, f1, h1, rfl⟩, ⟨f0', f1, h2, rfl⟩, rfl, rfl⟩, ?_⟩
    intro b b' z0 z0' z1 sb sb' a a'
    have rb := (OpenQuery.round (.lin d C p t) _ hf sb a (OpenQuery.masked (.lin d C p t) (s, m, r) { e0 with stream := z0 }) e1 rfl ho hd).1
    have rb' := (OpenQuery.round (.lin d C p t) _ hf' sb' a' (OpenQuery.masked (.lin d C p t) (s, maskEquiv (σ s) m, r) { e0 with stream := z0' }) e1
      rfl ho hd).1
    obtain ⟨F0, F1, hF, rfl⟩ := sb
    obtain ⟨F0', F1', hF', rfl⟩ := sb'
    have E : ∀ i, F0 i = f0 i ∧ F1 i = f1 i := fun i => by
      have := (hF i).symm.trans (h1 i)
      simp only [Option.some.injEq, Prod.mk.injEq] at this
      exact this
    have E' : ∀ i, F0' i = f0' i ∧ F1' i = f1 i := fun i => by
      have := (hF' i).symm.trans (h2 i)
      simp only [Option.some.injEq, Prod.mk.injEq] at this
      exact this
    obtain rfl : F0 = f0 := funext fun i => (E i).1
    obtain rfl : F1 = f1 := funext fun i => (E i).2
    obtain rfl : F0' = f0' := funext fun i => (E' i).1
    obtain rfl : F1' = F1 := funext fun i => (E' i).2
    obtain ⟨_, _, r0, r1, -, i1, v0, v1, K⟩ := dispatch_lin c g0 g1 coef rb hs
    obtain ⟨_, _, r0', r1', -, i1', v0', v1', K'⟩ := dispatch_lin c g0 g1 coef rb' hs
    have := i1.symm.trans i1'
    simp only [Option.some.injEq, Prod.mk.injEq] at this
    obtain ⟨-, rfl⟩ := this
    simp only [fill_count] at v0 v1 v0' v1' K K'
    obtain ⟨w, w1, w2⟩ := H _ _ _ v0 v0' v1
    exact ⟨w, (K w).2 w1, (K' w).2 w2⟩

/-! ## The session -/

/-- What the servers share after the queries in `l`. -/
def beforeOpen {k : ℕ} (nbits : ℕ) (q : Fin k → OpenQuery) (e1 : Fin k → Env) (y : Shared) (l : List (Fin k)) : Shared :=
  l.foldl (fun y j => (y.refresh (e1 j).draw).after nbits (q j).shape) y

theorem beforeOpen_canon {k : ℕ} {nbits : ℕ} {q : Fin k → OpenQuery} {e1 : Fin k → Env} (hd : ∀ i, Canon (e1 i).draw intModulus) {y : Shared}
    (hy : Canon y.x intModulus) (l : List (Fin k)) : Canon (beforeOpen nbits q e1 y l).x intModulus := by
  induction l generalizing y with
  | nil => exact hy
  | cons i l ih => exact ih (y := (y.refresh (e1 i).draw).after nbits (q i).shape) (refreshed_canon hy (hd i))

theorem masked_stream (q : OpenQuery) (r : q.Rand) (e : Env) : (q.masked r e).stream = e.stream ∧ (q.masked r e).draw = e.draw := by
  cases q <;> exact ⟨rfl, rfl⟩

/-- C78 for server 1, all operations but FREQ. In BIT_SUM, INT_SUM, AND, OR, MAX and MIN server 0 may get any other values under the same keys; in
VAR, STDDEV and LINREG the honest clients may have any other values, and others may take part with any submissions. There are bijections of the
random draws (masks of server 0, shares and packets of the clients), query by query, under which server 1 gets the same submissions and all that
it ever sees in the session is the same. Missing, as in C64: in VAR, STDDEV and LINREG the masks are taken to be uniform residues; the code reduces
a uniform 64-bit word, which is slightly biased (`C64_mask_bias`). -/
theorem C78_server1_any_partial (c : StoreCfg) {g0 g1 : StoreRng} (hg : GoodRng intModulus g0) {nbits : ℕ} (coef : ℕ → ℤ) {k : ℕ} (q : Fin k → OpenQuery)
    (v v' : ∀ i, (q i).Val) (hf : ∀ i, (q i).Fit nbits (v i)) (hf' : ∀ i, (q i).Fit nbits (v' i))
    (halike : ∀ i, (q i).Alike nbits (v i) (v' i)) (e0 e1 : Fin k → Env) (ho : ∀ i (α : Type), IsOrder ((e1 i).ord (α := α)))
    (hby : ∀ i (α : Type), ByKeys ((e1 i).ord (α := α))) (hd : ∀ i, Canon (e1 i).draw intModulus) {y : Shared} {s0 s1 : Srv} (hs : InStep y s0 s1) :
    ∃ e : ∀ i, (q i).Rand ≃ (q i).Rand, ∀ r : ∀ i, (q i).Rand,
      (∃ b b' : Fin k → Batch, ∀ i, (q i).Sends nbits (v i) (r i) (b i) ∧ (q i).Sends nbits (v' i) (e i (r i)) (b' i) ∧ (b i).SameSecond (b' i)) ∧
      ∀ (b b' : Fin k → Batch) (z0 z0' z1 : Fin k → Bytes), (∀ i, (q i).Sends nbits (v i) (r i) (b i)) → (∀ i, (q i).Sends nbits (v' i) (e i (r i)) (b' i)) →
        (∀ i, (b i).Arrives nbits (z0 i) (z1 i)) → (∀ i, (b' i).Arrives nbits (z0' i) (z1 i)) → ∃ w,
        Sees1 (session false c g0 nbits coef ((List.finRange k).map fun i => (q i).masked (r i) { e0 i with stream := z0 i }) s0)
          (session true c g1 nbits coef ((List.finRange k).map fun i => { e1 i with stream := z1 i }) s1) w ∧
        Sees1 (session false c g0 nbits coef ((List.finRange k).map fun i => (q i).masked (e i (r i)) { e0 i with stream := z0' i }) s0)
          (session true c g1 nbits coef ((List.finRange k).map fun i => { e1 i with stream := z1 i }) s1) w := by
  have hy := hs.sn0.canon
  have hc : ∀ i : Fin k, Canon ((beforeOpen nbits q e1 y ((List.finRange k).take i)).refresh (e1 i).draw).x intModulus := fun i =>
    refreshed_canon (beforeOpen_canon hd hy _) (hd i)
  choose e he using fun i => (q i).hide1 c g0 g1 coef (hf i) (hf' i) (halike i) (e0 i) (e1 i) (ho i) (hby i) (hd i) (hc i)
  refine ⟨e, fun r => ⟨?_, fun b b' z0 z0' z1 hb hb' ha ha' => ?_⟩⟩
  · choose b b' h using fun i => (he i (r i)).1
    exact ⟨b, b', h⟩
  · have hH : Hidden true c g0 g1 nbits coef y ((List.finRange k).map fun i =>
        ((b i, (q i).masked (r i) { e0 i with stream := z0 i }, { e1 i with stream := z1 i }),
          (b' i, (q i).masked (e i (r i)) { e0 i with stream := z0' i }, { e1 i with stream := z1 i }))) := by
      refine hidden_map (step := fun y j => (y.refresh (e1 j).draw).after nbits (q j).shape) ?_
      rintro l1 i l2 hl z rfl
      obtain rfl := finRange_split hl
      obtain ⟨-, H⟩ := he i (r i)
      obtain ⟨r1, n1⟩ := (q i).round (r i) (hf i) (hb i) (ha i) _ (e1 i) (masked_stream (q i) (r i) { e0 i with stream := z0 i }).1 (ho i) (hd i)
      obtain ⟨r2, n2⟩ := (q i).round (e i (r i)) (hf' i) (hb' i) (ha' i) _ (e1 i) (masked_stream (q i) (e i (r i)) { e0 i with stream := z0' i }).1 (ho i) (hd i)
      obtain ⟨w, w1, w2⟩ := H _ _ _ _ _ (hb i) (hb' i) (ha i) (ha' i)
      refine ⟨r1, r2, n1, n2, ?_, rfl, ?_, ?_, _, _, w, freshAt_ok (hc i), w1, w2⟩
      · rw [(masked_stream (q i) _ _).2, (masked_stream (q i) _ _).2]
      · rw [(q i).checks (hf i) (hb i), (q i).checks (hf' i) (hb' i)]
      · rw [(q i).checks (hf i) (hb i)]
    obtain ⟨A, B, A', B', v0, v1, v0', v1', W, W', E⟩ := hidden_views true c hg coef _ hH hs hs rfl rfl
    simp only [List.map_map, Function.comp_def] at W W'
    have E : v1 = v1' := E
    exact ⟨v1, W.sees1, E ▸ W'.sees1⟩

/-! ## Examples -/

/-- Three honest clients with any values: all that they may send can arrive. -/
example : ∃ t, let q := OpenQuery.var false threeGuests t
    ∀ v v' : q.Val, q.Fit 4 v ∧ q.Fit 4 v' ∧ q.Alike 4 v v' ∧
    ∀ r : q.Rand, r.1 = (fun _ => 0#64, fun _ => 0#64) → ∀ b, q.Sends 4 v r b → ∃ z0 z1, b.Arrives 4 z0 z1 := by
  obtain ⟨t, ht⟩ := C30_sizes (c := varCircuit) (by decide) [] _ .start
  refine ⟨t, fun v v' => ⟨⟨threeGuests_ok, by norm_num, [], ht⟩, ⟨threeGuests_ok, by norm_num, [], ht⟩, trivial, ?_⟩⟩
  rintro ⟨s, m, r⟩ rfl b ⟨f0, f1, h, rfl⟩
  obtain ⟨⟨s0, h0⟩, s1, h1⟩ := threeGuests_streams ht v r h
  have hl : ∀ f : Fin 3 → SnipRow, (fill threeGuests.key threeGuests.a0 f).length = 3 := fun f => fill_count (α := SnipRow) threeGuests.key _ f
  have hl1 : ∀ f : Fin 3 → SnipRow, (fill threeGuests.key threeGuests.a1 f).length = 3 := fun f => fill_count (α := SnipRow) threeGuests.key _ f
  have op : ∀ s, Opens 7#32 3 none (encInit ⟨7#32, 3#32, 0#32⟩ ++ s) s := fun s => ⟨by norm_num, 0, by simp, rfl⟩
  exact ⟨encInit ⟨7#32, 3#32, 0#32⟩ ++ s0, encInit ⟨7#32, 3#32, 0#32⟩ ++ s1, s0, s1,
    (hl f0).symm ▸ op s0, (hl f0).symm ▸ h0, (hl1 f1).symm ▸ op s1, (hl1 f1).symm ▸ h1⟩

end Verif

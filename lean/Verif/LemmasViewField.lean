import Verif.LemmasViewSession
import Verif.PropsViewVar
import Verif.PropsViewLin

/-!
# Records of sessions with VAR, STDDEV and LINREG

What a server sees in these operations depends on the state of the checker only through the check point, the count of its uses and the position
in the sequence of coefficients.
-/

namespace Verif

/-! ## The programs without their final state -/

/-- A program without the second part of its result. -/
def Proc.fst {α σ : Type} (P : Proc (α × σ)) : Proc α := P.bind fun r => .ret r.1

theorem prepare_same {x : ℤ} {uses pos : ℕ} {st st' : SnipState} (h : SnipOk x uses pos st) (h' : SnipOk x uses pos st') {k : ℕ} (hk : k ≤ 18) (n : ℕ) :
    ∃ pre z z', prepare st (2 ^ k) n = some (pre, z) ∧ prepare st' (2 ^ k) n = some (pre, z') := by
  obtain ⟨pre, z, q, -, t, l, hrc, hpre⟩ := prepare_ok h hk n
  obtain ⟨pre', z', q', -, t', l', hrc', hpre'⟩ := prepare_ok h' hk n
  rw [rootCalls_eq hrc' hrc, hpre] at hpre'
  cases hpre'
  exact ⟨pre, z, z', q, q'⟩

theorem validate_same {c : Circuit} (hc : CircOk c) (sv : Bool) (coef : ℕ → ℤ) {x : ℤ} {uses pos : ℕ} {st st' : SnipState} (h : SnipOk x uses pos st)
    (h' : SnipOk x uses pos st') (ni : ℕ) (pks : List Packet) (sh : List ℤ) {β : Type} (F : List Bool → Proc β) :
    ((validateSnips sv c coef st ni pks sh).bind fun r => F r.1) = (validateSnips sv c coef st' ni pks sh).bind fun r => F r.1 := by
  unfold validateSnips
  split
  · rfl
  · have hk : c.mulGates.length.size ≤ 18 := Nat.size_le.2 hc.small
    obtain ⟨pre, z, z', q, q'⟩ := prepare_same h h' hk pks.length
    rw [npow2_pow, q, q', h.hpos, h'.hpos]
    simp only [Proc.ofOption, Proc.bind, Proc.bind_assoc]

theorem snipOp0_same {c : Circuit} (hc : CircOk c) (coef : ℕ → ℤ) (ws : List ℕ) (raw : ℕ → ℕ → ℕ → U64) (junk : ℕ → List U64) {x : ℤ} {uses pos : ℕ}
    {st st' : SnipState} (h : SnipOk x uses pos st) (h' : SnipOk x uses pos st') (m : Map SnipRow) {β : Type} (F : List ℤ → ℕ → Proc β) :
    ((snipOp0 c coef ws raw junk st m).bind fun a => F a.1 a.2.1) = (snipOp0 c coef ws raw junk st' m).bind fun a => F a.1 a.2.1 := by
  unfold snipOp0
  simp only [Proc.bind_assoc, Proc.bind]
  congr 1; funext ks; congr 1; funext sh
  exact validate_same hc false coef h h' _ _ _ fun vs => (Proc.put (encBools (List.zipWith (· && ·) (matched m ks) vs))).bind fun _ =>
    F (accumulate ws.length (pieces ws.length ks.length sh) (List.zipWith (· && ·) (matched m ks) vs)) (numTrue (List.zipWith (· && ·) (matched m ks) vs))

theorem snipOp1_same {c : Circuit} (hc : CircOk c) (coef : ℕ → ℤ) (ws : List ℕ) (raw : ℕ → ℕ → ℕ → U64) {x : ℤ} {uses pos : ℕ}
    {st st' : SnipState} (h : SnipOk x uses pos st) (h' : SnipOk x uses pos st') (m o : Map SnipRow) {β : Type} (F : List ℤ → Proc β) :
    ((snipOp1 c coef ws raw st m o).bind fun a => F a.1) = (snipOp1 c coef ws raw st' m o).bind fun a => F a.1 := by
  unfold snipOp1
  simp only [Proc.bind_assoc, Proc.bind]
  congr 1; funext _; congr 1; funext rows; congr 1; funext sh
  exact validate_same hc true coef h h' _ _ _ fun vs => (rdBools o.length).toProc.bind fun valid =>
    F (accumulate ws.length (pieces ws.length o.length sh) (List.zipWith (· && ·) valid vs))

theorem varOp0_same (fma std : Bool) (nbits total : ℕ) (s : Bytes) (coef : ℕ → ℤ) (raw : ℕ → ℕ → ℕ → U64) {x : ℤ} {uses pos : ℕ}
    {st st' : SnipState} (h : SnipOk x uses pos st) (h' : SnipOk x uses pos st') {β : Type} (F : Ret (Option ℝ) → Proc β) :
    ((varOp0 fma std nbits total s coef raw st).bind fun a => F a.1) = (varOp0 fma std nbits total s coef raw st').bind fun a => F a.1 := by
  unfold varOp0
  simp only [Proc.bind_assoc, Proc.bind, checkVar_eq, Proc.ofOption]
  congr 1; funext m
  exact snipOp0_same varCircuit_ok coef _ raw _ h h' m fun a n => rdFmpz.toProc.bind fun b => rdFmpz.toProc.bind fun b2 =>
    F (finish n total (varAnswer fma std (fmod (b + a.getD 0 0) intModulus) (fmod (b2 + a.getD 1 0) intModulus) n))

theorem varOp1_same (nbits total : ℕ) (s : Bytes) (coef : ℕ → ℤ) (raw : ℕ → ℕ → ℕ → U64) {x : ℤ} {uses pos : ℕ}
    {st st' : SnipState} (h : SnipOk x uses pos st) (h' : SnipOk x uses pos st') (ord : Map SnipRow → Map SnipRow) {β : Type}
    (F : Ret (Option ℝ) → Proc β) :
    ((varOp1 nbits total s coef raw st ord).bind fun a => F a.1) = (varOp1 nbits total s coef raw st' ord).bind fun a => F a.1 := by
  unfold varOp1
  simp only [Proc.bind_assoc, Proc.bind, checkVar_eq, Proc.ofOption]
  congr 1; funext m
  exact snipOp1_same varCircuit_ok coef _ raw h h' m (ord m) fun b => (Proc.putOpt (encFmpz (b.getD 0 0))).bind fun _ =>
    (Proc.putOpt (encFmpz (b.getD 1 0))).bind fun _ => F .noAns

theorem linOp0_same {d : ℕ} (hd : 1 ≤ d) (hsm : linMul d < 2 ^ 18) (nbits total : ℕ) {s : Bytes} {subs : List (Bytes × LinRow)} {n : ℕ}
    (hl : LinStream d n s subs) (coef : ℕ → ℤ) (raw : ℕ → ℕ → ℕ → U64) (u : ℕ → ℕ → U64) {x : ℤ} {uses pos : ℕ}
    {st st' : SnipState} (h : SnipOk x uses pos st) (h' : SnipOk x uses pos st') {β : Type} (F : Ret (Option (List ℚ)) → Proc β) :
    ((linOp0 nbits total s coef raw u st).bind fun a => F a.1) = (linOp0 nbits total s coef raw u st').bind fun a => F a.1 := by
  obtain ⟨s', rest, hr, -⟩ := hl
  obtain ⟨c, hc, hcok, -⟩ := linCircuit hd hsm
  unfold linOp0
  simp only [hr, Proc.bind_assoc, Proc.bind, Proc.ofOption, lin_degree hsm, hc]
  congr 1; funext m
  have e : ∀ (a : List ℤ × ℕ × SnipState) (X Y : List U64), ((if belowThreshold a.2.1 total then (Proc.ret (Ret.invalid, a.2.2) : Proc (Ret (Option (List ℚ)) × SnipState))
      else (Proc.ofOption (solveLinReg d X Y)).bind fun r => .ret (.ans r, a.2.2)).bind fun a => F a.1) =
      if belowThreshold a.2.1 total then F .invalid else (Proc.ofOption (solveLinReg d X Y)).bind fun r => F (.ans r) := by
    intro a X Y
    split
    · rfl
    · rw [Proc.bind_assoc]; rfl
  simp only [Proc.ofOption] at e
  simp only [e]
  exact snipOp0_same hcok coef _ raw _ h h' _ fun a n => (rdLinSums d).toProc.bind fun b =>
    if belowThreshold n total then F .invalid else (Proc.ofOption (solveLinReg d (BitVec.ofNat 64 n :: addOwn a 0 b.1 ++ addOwn a d b.2.2.1)
      (addOwn a (d - 1) [b.2.1] ++ addOwn a (d + numQuad d) b.2.2.2))).bind fun r => F (.ans r)

theorem linOp1_same {d : ℕ} (hd : 1 ≤ d) (hsm : linMul d < 2 ^ 18) (nbits total : ℕ) {s : Bytes} {subs : List (Bytes × LinRow)} {n : ℕ}
    (hl : LinStream d n s subs) (coef : ℕ → ℤ) (raw : ℕ → ℕ → ℕ → U64) {x : ℤ} {uses pos : ℕ}
    {st st' : SnipState} (h : SnipOk x uses pos st) (h' : SnipOk x uses pos st') (ord : Map LinRow → Map LinRow) {β : Type}
    (F : Ret (Option (List ℚ)) → Proc β) :
    ((linOp1 nbits total s coef raw st ord).bind fun a => F a.1) = (linOp1 nbits total s coef raw st' ord).bind fun a => F a.1 := by
  obtain ⟨s', rest, hr, -⟩ := hl
  obtain ⟨c, hc, hcok, -⟩ := linCircuit hd hsm
  unfold linOp1
  simp only [hr, Proc.bind_assoc, Proc.bind, Proc.ofOption, lin_degree hsm, hc]
  congr 1; funext m
  exact snipOp1_same hcok coef _ raw h h' _ _ fun b => (Proc.putOpt (encFmpzs b)).bind fun _ => F .noAns

/-- Two pairs of programs that are alike but for the states they return have the same records. -/
theorem PairW.alike {α β σ τ : Type} {P0 P0' : Proc (α × σ)} {P1 P1' : Proc (β × τ)} (h0 : P0.fst = P0'.fst) (h1 : P1.fst = P1'.fst)
    {a a' : α × σ} {b b' : β × τ} (h : Pair P0 P1 a b) (h' : Pair P0' P1' a' b') : ∃ v0 v1, PairW P0 P1 a b v0 v1 ∧ PairW P0' P1' a' b' v0 v1 := by
  obtain ⟨v0, v1, w⟩ := h.recorded
  obtain ⟨v0', v1', w'⟩ := h'.recorded
  have m := w.map (f := Prod.fst) (g := Prod.fst)
  have m' := w'.map (f := Prod.fst) (g := Prod.fst)
  change PairW P0.fst P1.fst _ _ _ _ at m
  change PairW P0'.fst P1'.fst _ _ _ _ at m'
  rw [← h0, ← h1] at m'
  obtain rfl := m.sees0.unique m'.sees0
  obtain rfl := m.sees1.unique m'.sees1
  exact ⟨_, _, w, w'⟩

/-! ## One query from two states in step -/

/-- The operations other than FREQ. -/
def Batch.NoFreq : Batch → Prop
  | .freq _ _ => False
  | _ => True

theorem dispatch_same (c : StoreCfg) (g0 g1 : StoreRng) {nbits : ℕ} (coef : ℕ → ℤ) {b : Batch} (hb : b.NoFreq) {e0 e1 : Env}
    (h : RoundOk nbits (b, e0, e1)) {y : Shared} {s0 s1 s0' s1' : Srv} (hs : InStep y s0 s1) (hs' : InStep y s0' s1') :
    ∃ a a' z0 z1 z0' z1' v0 v1,
      PairW (dispatch0 c g0 nbits coef e0 s0) (dispatch1 c g1 nbits coef e1 s1) (a, ⟨z0, s0.cor⟩) (b.quiet, ⟨z1, s1.cor⟩) v0 v1 ∧
      PairW (dispatch0 c g0 nbits coef e0 s0') (dispatch1 c g1 nbits coef e1 s1') (a', ⟨z0', s0'.cor⟩) (b.quiet, ⟨z1', s1'.cor⟩) v0 v1 ∧
      InStep (y.after nbits b) ⟨z0, s0.cor⟩ ⟨z1, s1.cor⟩ ∧ InStep (y.after nbits b) ⟨z0', s0'.cor⟩ ⟨z1', s1'.cor⟩ := by
  by_cases hp : b.Plain
  · obtain ⟨a, v⟩ := dispatch_view c g0 g1 coef hp h s0 s1
    obtain ⟨a', v'⟩ := dispatch_view c g0 g1 coef hp h s0' s1'
    have e : y.after nbits b = y := by
      cases b <;> first | exact hp.elim | simp [Shared.after, Batch.checks]
    rw [e]
    exact ⟨a, a', _, _, _, _, _, _, v, v', hs, hs'⟩
  · have ha := h.arrives
    have hk := h.ok
    have ho := h.ord
    dsimp only at ha hk ho
    cases b with
    | var t a b =>
      obtain ⟨r0, r1, o0, v0, o1, v1⟩ := ha
      obtain ⟨m0, -, q0, k0⟩ := o0.run
      obtain ⟨m1, -, q1, k1⟩ := o1.run
      obtain ⟨z0, z1, hP, w0, w1⟩ := var_pair e0.fma t hk.1 o1.1 v0 v1 hk.2 hs.sn0 hs.sn1 coef e0.raw e1.raw e1.ord (ho _)
      obtain ⟨z0', z1', hP', w0', w1'⟩ := var_pair e0.fma t hk.1 o1.1 v0 v1 hk.2 hs'.sn0 hs'.sn1 coef e0.raw e1.raw e1.ord (ho _)
      obtain ⟨A, hP⟩ : ∃ A, Pair (varOp0 e0.fma t nbits a.length r0 coef e0.raw s0.snip) (varOp1 nbits b.length r1 coef e1.raw s1.snip e1.ord) (A, z0)
        (.noAns, z1) := ⟨_, hP⟩
      obtain ⟨A', hP'⟩ : ∃ A, Pair (varOp0 e0.fma t nbits a.length r0 coef e0.raw s0'.snip) (varOp1 nbits b.length r1 coef e1.raw s1'.snip e1.ord) (A, z0')
        (.noAns, z1') := ⟨_, hP'⟩
      have hl : (e1.ord (admit (varFits nbits) b [])).keys.length = (admit (varFits nbits) b []).length := by
        rw [Map.keys, List.length_map, (ho _ _).length_eq]
      rw [hl] at w0 w1 w0' w1'
      obtain ⟨x0, x1, hW, hW'⟩ := PairW.alike (varOp0_same _ _ _ _ _ coef e0.raw hs.sn0 hs'.sn0 .ret)
        (varOp1_same _ _ _ coef e1.raw hs.sn1 hs'.sn1 e1.ord .ret) hP hP'
      refine ⟨.real A, .real A', z0, z1, z0', z1', x0, x1, ?_, ?_, ⟨w0, w1, hs.cor⟩, ⟨w0', w1', hs'.cor⟩⟩
      · unfold dispatch0 dispatch1
        cases t <;> simp only [q0, q1, Proc.ofOption, Proc.bind, k0, k1, if_true] <;>
          exact hW.map (fun r => (Answer.real r.1, { s0 with snip := r.2 })) fun r => (Answer.real r.1, { s1 with snip := r.2 })
      · unfold dispatch0 dispatch1
        cases t <;> simp only [q0, q1, Proc.ofOption, Proc.bind, k0, k1, if_true] <;>
          exact hW'.map (fun r => (Answer.real r.1, { s0' with snip := r.2 })) fun r => (Answer.real r.1, { s1' with snip := r.2 })
    | lin d a b =>
      obtain ⟨r0, r1, o0, v0, o1, v1⟩ := ha
      obtain ⟨m0, -, q0, k0⟩ := o0.run
      obtain ⟨m1, -, q1, k1⟩ := o1.run
      obtain ⟨hn, hd, hsm, hne⟩ := hk
      obtain ⟨cc, hcc, -⟩ := linCircuit hd hsm
      obtain ⟨z0, z1, xa, ya, q, hP, -, -, -, w0, w1⟩ := lin_pair hd hsm hn (lt_trans o0.1 (by norm_num)) o1.1 v0 v1 hne hs.sn0 hs.sn1
        coef e0.raw e1.raw e0.junkLin e1.ord (ho _) hcc
      obtain ⟨z0', z1', xa', ya', q', hP', -, -, -, w0', w1'⟩ := lin_pair hd hsm hn (lt_trans o0.1 (by norm_num)) o1.1 v0 v1 hne hs'.sn0 hs'.sn1
        coef e0.raw e1.raw e0.junkLin e1.ord (ho _) hcc
      obtain ⟨A, hP⟩ : ∃ A, Pair (linOp0 nbits a.length r0 coef e0.raw e0.junkLin s0.snip) (linOp1 nbits b.length r1 coef e1.raw s1.snip e1.ord) (A, z0)
        (.noAns, z1) := ⟨_, hP⟩
      obtain ⟨A', hP'⟩ : ∃ A, Pair (linOp0 nbits a.length r0 coef e0.raw e0.junkLin s0'.snip) (linOp1 nbits b.length r1 coef e1.raw s1'.snip e1.ord) (A, z0')
        (.noAns, z1') := ⟨_, hP'⟩
      have hl : (e1.ord (admit (linFits nbits) b [])).keys.length = (admit (linFits nbits) b []).length := by
        rw [Map.keys, List.length_map, (ho _ _).length_eq]
      rw [hl] at w0 w1 w0' w1'
      obtain ⟨x0, x1, hW, hW'⟩ := PairW.alike (linOp0_same hd hsm _ _ v0 coef e0.raw e0.junkLin hs.sn0 hs'.sn0 .ret)
        (linOp1_same hd hsm _ _ v1 coef e1.raw hs.sn1 hs'.sn1 e1.ord .ret) hP hP'
      refine ⟨.lin A, .lin A', z0, z1, z0', z1', x0, x1, ?_, ?_, ⟨w0, w1, hs.cor⟩, ⟨w0', w1', hs'.cor⟩⟩
      · unfold dispatch0 dispatch1
        simp only [q0, q1, Proc.ofOption, Proc.bind, k0, k1, if_true]
        exact hW.map (fun r => (Answer.lin r.1, { s0 with snip := r.2 })) fun r => (Answer.lin r.1, { s1 with snip := r.2 })
      · unfold dispatch0 dispatch1
        simp only [q0, q1, Proc.ofOption, Proc.bind, k0, k1, if_true]
        exact hW'.map (fun r => (Answer.lin r.1, { s0' with snip := r.2 })) fun r => (Answer.lin r.1, { s1' with snip := r.2 })
    | freq a b => exact hb.elim
    | _ => exact (hp trivial).elim

/-! ## The head of the loop from two states in step -/

theorem maybeRefresh_view {y : Shared} {draw : ℤ} (hd : Canon draw intModulus) (d0 : ℤ) : ∃ w0 w1, ∀ st0 st1, SnipOk y.x y.uses y.pos st0 →
    SnipOk y.x y.uses y.pos st1 → ∃ st0' st1', PairW (maybeRefresh false d0 st0) (maybeRefresh true draw st1) st0' st1' w0 w1 ∧
      SnipOk (y.refresh draw).x (y.refresh draw).uses (y.refresh draw).pos st0' ∧
      SnipOk (y.refresh draw).x (y.refresh draw).uses (y.refresh draw).pos st1' := by
  unfold maybeRefresh Shared.refresh randomXThreshold
  by_cases hu : 1000000 < y.uses
  · obtain ⟨w0, w1, hw⟩ := (syncRandomX_pair hd d0).recorded
    refine ⟨w0 ++ [], w1 ++ [], fun st0 st1 h0 h1 => ?_⟩
    rw [h0.huses, h1.huses, if_pos hu, if_pos hu, if_pos hu]
    obtain ⟨s0, e0, k0⟩ := refreshStore_ok hd st0.store h0.store
    obtain ⟨s1, e1, k1⟩ := refreshStore_ok hd st1.store h1.store
    refine ⟨{ st0 with x := draw, uses := 0, store := s0 }, { st1 with x := draw, uses := 0, store := s1 }, ?_, ?_, ?_⟩
    · refine hw.bind ?_
      rw [e0, e1]
      exact PairW.ret _ _
    · exact ⟨rfl, hd, rfl, h0.hpos, h0.tabs, k0⟩
    · exact ⟨rfl, hd, rfl, h1.hpos, h1.tabs, k1⟩
  · refine ⟨[], [], fun st0 st1 h0 h1 => ?_⟩
    rw [h0.huses, h1.huses, if_neg hu, if_neg hu, if_neg hu]
    exact ⟨st0, st1, PairW.ret _ _, h0, h1⟩

theorem loopHead_same (c : StoreCfg) {g0 g1 : StoreRng} (hg : GoodRng intModulus g0) {y : Shared} {s0 s1 s0' s1' : Srv} (hs : InStep y s0 s1)
    (hs' : InStep y s0' s1') (k0 : s0'.cor = s0.cor) (k1 : s1'.cor = s1.cor) {draw : ℤ} (hd : Canon draw intModulus) (d0 : ℤ) :
    ∃ t0 t1 t0' t1' w0 w1, PairW (loopHead false c g0 d0 s0) (loopHead true c g1 draw s1) t0 t1 w0 w1 ∧
      PairW (loopHead false c g0 d0 s0') (loopHead true c g1 draw s1') t0' t1' w0 w1 ∧ InStep (y.refresh draw) t0 t1 ∧
      InStep (y.refresh draw) t0' t1' ∧ t0'.cor = t0.cor ∧ t1'.cor = t1.cor := by
  obtain ⟨w0, w1, H⟩ := maybeRefresh_view (y := y) hd d0
  obtain ⟨a0, a1, hA, q0, q1⟩ := H _ _ hs.sn0 hs.sn1
  obtain ⟨b0, b1, hB, p0, p1⟩ := H _ _ hs'.sn0 hs'.sn1
  obtain ⟨c0, c1, hM, hok, -⟩ := maybeUpdate_fills goodModulus c g0 g1 hg s0.cor s1.cor hs.cor
  obtain ⟨x0, x1, hX⟩ := hM.recorded
  refine ⟨⟨a0, c0⟩, ⟨a1, c1⟩, ⟨b0, c0⟩, ⟨b1, c1⟩, w0 ++ (x0 ++ []), w1 ++ (x1 ++ []), hA.bind (hX.bind (PairW.ret _ _)), ?_, ⟨q0, q1, hok⟩, ⟨p0, p1, hok⟩,
    rfl, rfl⟩
  unfold loopHead
  rw [k0, k1]
  exact hB.bind (hX.bind (PairW.ret _ _))

/-! ## A session in two worlds -/

/-- The view of server `sv`. -/
def SeesBy {α β : Type} (sv : Bool) (P0 : Proc α) (P1 : Proc β) (v : List Seen) : Prop := if sv then Sees1 P0 P1 v else Sees0 P0 P1 v

/-- The queries of two sessions, from servers that agree on `y`: both meet the requirements of C47, as many submissions are checked, and server
`sv` sees the same in both (from some states that agree on the check point, its uses and the position). -/
def Hidden (sv : Bool) (c : StoreCfg) (g0 g1 : StoreRng) (nbits : ℕ) (coef : ℕ → ℤ) :
    Shared → List ((Batch × Env × Env) × (Batch × Env × Env)) → Prop
  | _, [] => True
  | y, r :: rs => RoundOk nbits r.1 ∧ RoundOk nbits r.2 ∧ r.1.1.NoFreq ∧ r.2.1.NoFreq ∧ r.2.2.1.draw = r.1.2.1.draw ∧ r.2.2.2.draw = r.1.2.2.draw ∧
      (y.refresh r.1.2.2.draw).after nbits r.2.1 = (y.refresh r.1.2.2.draw).after nbits r.1.1 ∧
      (∃ s0 s1 v, InStep (y.refresh r.1.2.2.draw) s0 s1 ∧
        SeesBy sv (dispatch0 c g0 nbits coef r.1.2.1 s0) (dispatch1 c g1 nbits coef r.1.2.2 s1) v ∧
        SeesBy sv (dispatch0 c g0 nbits coef r.2.2.1 s0) (dispatch1 c g1 nbits coef r.2.2.2 s1) v) ∧
      Hidden sv c g0 g1 nbits coef ((y.refresh r.1.2.2.draw).after nbits r.1.1) rs

theorem hidden_views (sv : Bool) (c : StoreCfg) {g0 g1 : StoreRng} (hg : GoodRng intModulus g0) {nbits : ℕ} (coef : ℕ → ℤ)
    (rs : List ((Batch × Env × Env) × (Batch × Env × Env))) {y : Shared} (hr : Hidden sv c g0 g1 nbits coef y rs) {s0 s1 s0' s1' : Srv}
    (hs : InStep y s0 s1) (hs' : InStep y s0' s1') (k0 : s0'.cor = s0.cor) (k1 : s1'.cor = s1.cor) :
    ∃ a b a' b' : List Answer × Srv, ∃ v0 v1 v0' v1' : List Seen,
      PairW (session false c g0 nbits coef (rs.map (·.1.2.1)) s0) (session true c g1 nbits coef (rs.map (·.1.2.2)) s1) a b v0 v1 ∧
      PairW (session false c g0 nbits coef (rs.map (·.2.2.1)) s0') (session true c g1 nbits coef (rs.map (·.2.2.2)) s1') a' b' v0' v1' ∧
      (if sv then v1 = v1' else v0 = v0') := by
  induction rs generalizing y s0 s1 s0' s1' with
  | nil => exact ⟨_, _, _, _, _, _, _, _, PairW.ret _ _, PairW.ret _ _, by cases sv <;> rfl⟩
  | cons r rs ih =>
    obtain ⟨h1, h2, p1, p2, d0, d1, hy, ⟨u0, u1, v, hu, S1, S2⟩, hr⟩ := hr
    obtain ⟨t0, t1, t0', t1', w0, w1, hH, hH', hI, hI', e0, e1⟩ := loopHead_same c (g1 := g1) hg hs hs' k0 k1 h1.draw r.1.2.1.draw
    obtain ⟨z, _, n0, n1, _, _, x0, x1, A1, A2, A3, -⟩ := dispatch_same c g0 g1 coef p1 h1 hI hu
    obtain ⟨z', _, n0', n1', _, _, x0', x1', B1, B2, B3, -⟩ := dispatch_same c g0 g1 coef p2 h2 hI' hu
    have hx : if sv then x1 = x1' else x0 = x0' := by
      cases sv
      · exact (A2.sees0.unique S1).trans (S2.unique B2.sees0)
      · exact (A2.sees1.unique S1).trans (S2.unique B2.sees1)
    rw [hy] at B3
    obtain ⟨a, b, a', b', v0, v1, v0', v1', hA, hB, hv⟩ := ih hr A3 B3 e0 e1
    have HA := (hH.bind (Q0 := loopBody false c g0 nbits coef r.1.2.1) (Q1 := loopBody true c g1 nbits coef r.1.2.2) A1).bind
      (Q0 := fun q => (session false c g0 nbits coef (rs.map (·.1.2.1)) q.2).bind fun p => .ret (q.1 :: p.1, p.2))
      (Q1 := fun q => (session true c g1 nbits coef (rs.map (·.1.2.2)) q.2).bind fun p => .ret (q.1 :: p.1, p.2)) (PairW.map (fun p => (z :: p.1, p.2))
        (fun p => (r.1.1.quiet :: p.1, p.2)) hA)
    have HB := (hH'.bind (Q0 := loopBody false c g0 nbits coef r.2.2.1) (Q1 := loopBody true c g1 nbits coef r.2.2.2) B1).bind
      (Q0 := fun q => (session false c g0 nbits coef (rs.map (·.2.2.1)) q.2).bind fun p => .ret (q.1 :: p.1, p.2))
      (Q1 := fun q => (session true c g1 nbits coef (rs.map (·.2.2.2)) q.2).bind fun p => .ret (q.1 :: p.1, p.2)) (PairW.map (fun p => (z' :: p.1, p.2))
        (fun p => (r.2.1.quiet :: p.1, p.2)) hB)
    rw [← iteration_split, ← iteration_split] at HA
    rw [← d0, ← d1, ← iteration_split, ← iteration_split] at HB
    refine ⟨_, _, _, _, _, _, _, _, HA, HB, ?_⟩
    cases sv
    · show _ = _
      rw [show x0 = x0' from hx, show v0 = v0' from hv]
    · show _ = _
      rw [show x1 = x1' from hx, show v1 = v1' from hv]

end Verif

import Verif.PropsStray
import Verif.PropsAfterFreq

/-!
# C76, continued: a stray query before queries of another operation
-/

namespace Verif

variable {α β γ : Type}

/-- The same program, as far as can be seen: after an oblivious transfer only answers of the right length matter. -/
inductive Sim : Proc α → Proc α → Prop
  | ret (a : α) : Sim (.ret a) (.ret a)
  | fault : Sim .fault .fault
  | send (bs : Bytes) {k k' : Proc α} : Sim k k' → Sim (.send bs k) (.send bs k')
  | recv (n : ℕ) {k k' : Bytes → Proc α} : (∀ bs, Sim (k bs) (k' bs)) → Sim (.recv n k) (.recv n k')
  | otSend (ch : Bool) (ps : List (U64 × U64)) {k k' : Proc α} : Sim k k' → Sim (.otSend ch ps k) (.otSend ch ps k')
  | otRecv (ch : Bool) (cs : List Bool) {k k' : List U64 → Proc α} : (∀ ws, ws.length = cs.length → Sim (k ws) (k' ws)) →
      Sim (.otRecv ch cs k) (.otRecv ch cs k')

theorem Sim.refl : ∀ p : Proc α, Sim p p
  | .ret a => .ret a
  | .fault => .fault
  | .send bs k => .send bs (Sim.refl k)
  | .recv n k => .recv n fun bs => Sim.refl (k bs)
  | .otSend ch ps k => .otSend ch ps (Sim.refl k)
  | .otRecv ch cs k => .otRecv ch cs fun ws _ => Sim.refl (k ws)

theorem Sim.bind {p p' : Proc α} {f f' : α → Proc β} (h : Sim p p') (hf : ∀ a, Sim (f a) (f' a)) : Sim (p.bind f) (p'.bind f') := by
  induction h with
  | ret a => exact hf a
  | fault => exact .fault
  | send bs _ ih => exact .send bs ih
  | recv n _ ih => exact .recv n ih
  | otSend ch ps _ ih => exact .otSend ch ps ih
  | otRecv ch cs _ ih => exact .otRecv ch cs ih

theorem choose_length {ps : List (U64 × U64)} {cs : List Bool} (h : ps.length = cs.length) : (otChoose ps cs).length = cs.length := by
  simp [otChoose, h]

theorem Sim.step {p0 : Proc α} {p1 p1' : Proc β} {a b : Bytes} (h : Sim p1 p1') {t : Sys α β} (hs : Step ⟨p0, p1, a, b⟩ t) :
    ∃ q0 q1 q1' a' b', t = ⟨q0, q1, a', b'⟩ ∧ Sim q1 q1' ∧ Step ⟨p0, p1', a, b⟩ ⟨q0, q1', a', b'⟩ := by
  cases hs with
  | send0 bs k => exact ⟨_, _, _, _, _, rfl, h, .send0 ..⟩
  | send1 bs _ k => cases h with | send _ h => exact ⟨_, _, _, _, _, rfl, h, .send1 ..⟩
  | recv0 n k _ _ _ hn => exact ⟨_, _, _, _, _, rfl, h, .recv0 _ _ _ _ _ hn⟩
  | recv1 n _ k _ _ hn => cases h with | recv _ h => exact ⟨_, _, _, _, _, rfl, h _, .recv1 _ _ _ _ _ hn⟩
  | ot01 ch ps cs k0 k1 _ _ hl => cases h with | otRecv _ _ h => exact ⟨_, _, _, _, _, rfl, h _ (choose_length hl), .ot01 _ _ _ _ _ _ _ hl⟩
  | ot10 ch ps cs k0 k1 _ _ hl => cases h with | otSend _ _ h => exact ⟨_, _, _, _, _, rfl, h, .ot10 _ _ _ _ _ _ _ hl⟩

theorem Sim.steps {n : ℕ} {s t : Sys α β} (hs : StepsN n s t) : ∀ {p1' : Proc β}, Sim s.p1 p1' →
    ∃ q1', Sim t.p1 q1' ∧ StepsN n ⟨s.p0, p1', s.q01, s.q10⟩ ⟨t.p0, q1', t.q01, t.q10⟩ := by
  induction hs with
  | refl s => exact fun h => ⟨_, h, .refl _⟩
  | head h1 _ ih =>
    intro p1' h
    obtain ⟨q0, q1, q1', a', b', rfl, h2, h3⟩ := h.step h1
    obtain ⟨r, h4, h5⟩ := ih h2
    exact ⟨r, h4, .head h3 h5⟩

theorem Always.sim {P0 : Proc α} {P1 P1' : Proc β} {a : α} {b : β} (h : Always P0 P1 a b) (hs : Sim P1 P1') : Always P0 P1' a b := by
  obtain ⟨n, hn⟩ := (h.1 _ (.refl _)).1
  obtain ⟨q, h1, h2⟩ := Sim.steps hn hs
  have hq : q = .ret b := by
    cases h1
    rfl
  subst hq
  exact Ends.ofSteps ⟨n, h2⟩

/-- An empty BIT_SUM query does the same at server 1 as an empty INT_SUM query. -/
theorem empty_sim (c : StoreCfg) (g : StoreRng) {nbits : ℕ} (hb : nbits < 64) (coef : ℕ → ℤ) (s : Srv) :
    Sim (loopBody true c g nbits coef (plainEnv (encInit ⟨2, 0, 0⟩)) s) (loopBody true c g nbits coef (plainEnv (encInit ⟨1, 0, 0⟩)) s) := by
  have h1 : loopBody true c g nbits coef (plainEnv (encInit ⟨1, 0, 0⟩)) s =
      (announce []).bind fun _ => .otRecv false [] fun r => .send (encU64 (r.foldl (fun s x => redMod 0#64 (s + x)) 0#64)) (.ret (.word .noAns, s)) := by
    have := C47_init_roundtrip ⟨1, 0, 0⟩ []
    rw [List.append_nil] at this
    simp only [loopBody, dispatch1, plainEnv, this, Proc.ofOption, Proc.bind, if_true]
    rfl
  have h2 : loopBody true c g nbits coef (plainEnv (encInit ⟨2, 0, 0⟩)) s =
      (announce []).bind fun _ => .otRecv false [] fun r => .send (encU64 0#64) (.ret (.word .noAns, s)) := by
    have := C47_init_roundtrip ⟨2, 0, 0⟩ []
    rw [List.append_nil] at this
    have hi : intIntake nbits 0 [] = some [] := by
      simp only [intIntake, maxVal, if_pos hb]
      rfl
    simp only [loopBody, dispatch1, plainEnv, this, Proc.ofOption, Proc.bind, if_true, intSumOp1]
    simp only [BitVec.ofNat_eq_ofNat, BitVec.toNat_ofNat, Nat.zero_mod, hi]
    rfl
  rw [h1, h2]
  refine (Sim.refl _).bind fun _ => .otRecv _ _ fun ws hw => ?_
  rw [List.length_nil, List.length_eq_zero_iff] at hw
  subst hw
  exact Sim.refl _

/-- The same twelve bytes as in `C76_false_twelve_bytes`, an empty BIT_SUM query sent to server 1 only, are enough to have all later INT_SUM queries refused. -/
theorem C76_false_twelve_bytes_int (c : StoreCfg) {g0 g1 : StoreRng} (hg : GoodRng intModulus g0) {nbits : ℕ} (hb : nbits < 64) (coef : ℕ → ℤ)
    (rs : List (List (Bytes × U64) × List (Bytes × U64) × Env × Env)) (hne : rs ≠ []) (hr : OneKind nbits (rs.map fun r => (Batch.intSum r.1 r.2.1, r.2.2)))
    {y : Shared} {s0 s1 : Srv} (hs : InStep y s0 s1) :
    ∃ as s0' s1' y', Always (session false c g0 nbits coef (rs.map (·.2.2.1)) s0)
        (session true c g1 nbits coef ((plainEnv (encInit ⟨1, 0, 0⟩) :: rs.map (·.2.2.2)).dropLast) s1) (as, s0') (rs.map fun _ => .word .noAns, s1') ∧
      as.length = rs.length ∧ (∀ a ∈ as, a.Refused) ∧ InStep y' s0' s1' ∧ (encInit ⟨1, 0, 0⟩).length = 12 := by
  have ho : Opens 2#32 0 none (encInit ⟨2, 0, 0⟩) [] := ⟨by norm_num, 0, by simp, by simp⟩
  obtain ⟨as, s0', s1', y', hP, hl, hA, hI⟩ := C76_false_stray1 c (g1 := g1) hg coef (b := .intSum [] []) (ez := plainEnv (encInit ⟨2, 0, 0⟩))
    ⟨by simp [Keyed], by simp [Keyed], hb⟩ ⟨_, [], [], ho, ho⟩ (plain_order _) (by simp only [Canon, plainEnv]; decide) _ hr
    (fun r h => by obtain ⟨q, -, rfl⟩ := List.mem_map.1 h; trivial) (fun r _ => by simp [Batch.keys1]) hs
  simp only [List.map_map, Function.comp_def] at hP
  refine ⟨as, s0', s1', y', hP.sim ?_, by simpa using hl, hA, hI, by decide⟩
  obtain ⟨r, rs, rfl⟩ := List.exists_cons_of_ne_nil hne
  rw [List.map_cons, List.dropLast_cons_cons, List.dropLast_cons_cons, session, session, iteration_split, iteration_split]
  refine Sim.bind (Sim.bind (Sim.refl _) fun s => empty_sim c g1 hb coef s) fun _ => Sim.refl _

/-- A server that cannot go on by itself: it waits for more bytes than have arrived, or for the other one to join an oblivious transfer of at least one message. -/
def Proc.Waits : Proc α → Bytes → Prop
  | .recv n _, q => q.length < n
  | .otSend _ ps _, _ => ps ≠ []
  | .otRecv _ cs _, _ => cs ≠ []
  | _, _ => False

/-- Every schedule comes to the same end, in which both servers wait for each other. -/
def Deadlock (P0 : Proc α) (P1 : Proc β) : Prop :=
  ∃ t : Sys α β, t.p0.Waits t.q10 ∧ t.p1.Waits t.q01 ∧ Stuck t ∧ (∀ u, Steps ⟨P0, P1, [], []⟩ u → Steps u t ∧ (Stuck u → u = t)) ∧
    ¬ ∃ f : ℕ → Sys α β, f 0 = ⟨P0, P1, [], []⟩ ∧ ∀ i, Step (f i) (f (i + 1))

/-- Whether the two servers begin with an oblivious transfer (BIT_SUM, INT_SUM, VAR, STDDEV, LINREG) or use messages only (AND, OR, MAX, MIN). -/
def Batch.byOt : Batch → Option Bool
  | .bitSum _ _ | .intSum _ _ => some true
  | .var _ _ _ | .lin _ _ _ => some true
  | .xor _ _ _ | .max _ _ _ _ => some false
  | _ => none

/-- Server 1 has something to announce. -/
def Batch.Announces (nbits : ℕ) : Batch → Prop
  | .intSum _ b => ∃ e ∈ b, e.2.toNat < 2 ^ nbits
  | b => b.keys1 ≠ []

/-- What server 0 does after the keys. -/
def Then0 (o : Bool) (P : Proc α) : Prop := if o then ∃ ch ps k, P = .otSend ch ps k ∧ ps ≠ [] else ∃ bs n k, P = .send bs (.recv n k) ∧ 0 < n

/-- What server 1 does after the keys. -/
def Then1 (o : Bool) (P : Proc α) : Prop := if o then ∃ ch cs k, P = .otRecv ch cs k ∧ cs ≠ [] else ∃ n k, P = .recv n k ∧ 0 < n

theorem convert0 (raw : ℕ → ℕ → ℕ → U64) {ns : ℕ} {ws : List ℕ} {flat : List U64} (hf : flat.length = ns * ws.length) (hw : ∀ w ∈ ws, w ≤ 48) (hs : 0 < ws.sum)
    (hn : 0 < ns) (K : List ℤ → Proc α) : Then0 true ((shareConvert intModulus false raw ns ws.length ws flat).bind K) := by
  have hx : ∀ r ∈ ((pieces ws.length ns flat).zipIdx.map fun q => (⟨q.1, true, raw q.2⟩ : IntRow)), r.vals.length = ws.length := by
    intro r hr
    obtain ⟨q, hq, rfl⟩ := List.mem_map.1 hr
    have := (List.mem_zipIdx' hq).2
    simp only [this]
    exact pieces_mem ws.length ns flat hf _ (List.getElem_mem _)
  have hl : ((pieces ws.length ns flat).zipIdx.map fun q => (⟨q.1, true, raw q.2⟩ : IntRow)).length = ns := by simp [pieces_length]
  unfold shareConvert
  rw [if_neg (by simp [hf])]
  simp only [Bool.false_eq_true, if_false]
  generalize (pieces ws.length ns flat).zipIdx.map (fun q => (⟨q.1, true, raw q.2⟩ : IntRow)) = rows at hx hl
  obtain ⟨r, rows, rfl⟩ := List.exists_cons_of_length_pos (show 0 < rows.length by omega)
  rw [intsumSender, if_pos (List.all_eq_true.2 fun r hr => by
    simp only [hx r hr, decide_true, Bool.true_and, Bool.or_eq_true]
    exact .inr (List.all_eq_true.2 fun w h => by have := hw w h; simp; omega))]
  refine ⟨_, _, _, rfl, ?_⟩
  rw [List.flatMap_cons, ← List.length_pos_iff, List.length_append, senderRow_length _ _ _ fun _ => hx _ (by simp)]
  omega

theorem convert1 (raw : ℕ → ℕ → ℕ → U64) {ns : ℕ} {ws : List ℕ} {flat : List U64} (hf : flat.length = ns * ws.length) (hs : 0 < ws.sum)
    (hn : 0 < ns) (K : List ℤ → Proc α) : Then1 true ((shareConvert intModulus true raw ns ws.length ws flat).bind K) := by
  have hx := pieces_mem ws.length ns flat hf
  have hl := pieces_length ws.length ns flat
  unfold shareConvert
  rw [if_neg (by simp [hf])]
  simp only [if_true]
  generalize pieces ws.length ns flat = rows at hx hl
  obtain ⟨r, rows, rfl⟩ := List.exists_cons_of_length_pos (show 0 < rows.length by omega)
  rw [intsumReceiver, if_pos (List.all_eq_true.2 fun r hr => by simp [hx r hr])]
  refine ⟨_, _, _, rfl, ?_⟩
  rw [List.flatMap_cons, ← List.length_pos_iff, List.length_append, rowBits_length _ _ (hx _ (by simp))]
  omega

theorem flat_vals {R : List SnipRow} {k : ℕ} (h : ∀ r ∈ R, r.vals.length = k) : (R.flatMap (·.vals)).length = R.length * k := by
  rw [List.flatMap, length_flatten_const _ k (by intro l hl; obtain ⟨r, hr, rfl⟩ := List.mem_map.1 hl; exact h r hr), List.length_map]

theorem snip_half0 (c : Circuit) (coef : ℕ → ℤ) {ws : List ℕ} (hw : ∀ w ∈ ws, w ≤ 48) (hs : 0 < ws.sum) (raw : ℕ → ℕ → ℕ → U64) {junk : ℕ → List U64}
    (hj : ∀ i, (junk i).length = ws.length) (st : SnipState) {m : Map SnipRow} (hm : ∀ e ∈ m, e.2.vals.length = ws.length) (K : List ℤ × ℕ × SnipState → Proc α) :
    ∃ G, (snipOp0 c coef ws raw junk st m).bind K = listen.bind G ∧ ∀ ks, ks ≠ [] → Then0 true (G ks) := by
  rw [snipOp0, Proc.bind_assoc]
  refine ⟨_, rfl, fun ks hk => ?_⟩
  dsimp only
  rw [Proc.bind_assoc]
  refine convert0 raw ?_ hw hs (List.length_pos_iff.2 hk) _
  rw [flat_vals (k := ws.length)]
  · simp [rows0]
  · intro r hr
    rw [List.mem_iff_getElem] at hr
    obtain ⟨i, hi, rfl⟩ := hr
    simp only [rows0, List.getElem_mapIdx]
    split
    · rename_i r hr
      exact hm _ (mem_of_lookup hr)
    · exact hj i

theorem rows1_order {m o : Map SnipRow} (hn : m.keys.Nodup) (hp : o.Perm m) : rows1 m (o.map (·.1)) = some (o.map (·.2)) := by
  unfold rows1
  have := optAll_spec ((o.map (·.1)).map fun k => List.lookup k m) (fun i => (o.map (·.2)).getD i ⟨[], zeroPacket 0⟩) ?_
  · rw [this]
    congr 1
    apply List.ext_getElem
    · simp
    · intro i h1' h2'
      have hi : i < o.length := by simpa using h2'
      simp [List.getD_eq_getElem?_getD, List.getElem?_eq_getElem hi]
  · intro i hi
    have hi : i < o.length := by simpa using hi
    have := lookup_of_mem hn (hp.mem_iff.1 (List.getElem_mem hi))
    simp only [List.map_map, List.getElem?_map, List.getElem?_eq_getElem hi, Option.map_some, Function.comp,
      List.getD_eq_getElem?_getD, Option.getD_some]
    exact congrArg some this

theorem snip_half1 (c : Circuit) (coef : ℕ → ℤ) {ws : List ℕ} (hs : 0 < ws.sum) (raw : ℕ → ℕ → ℕ → U64) (st : SnipState) {m o : Map SnipRow} (hn : m.keys.Nodup)
    (hp : o.Perm m) (hm : ∀ e ∈ m, e.2.vals.length = ws.length) (hne : o ≠ []) (K : List ℤ × SnipState → Proc α) :
    ∃ G, (snipOp1 c coef ws raw st m o).bind K = (announce (o.map (·.1))).bind G ∧ Then1 true (G ()) := by
  rw [snipOp1, Proc.bind_assoc]
  refine ⟨_, rfl, ?_⟩
  rw [rows1_order hn hp, Proc.ofOption, Proc.ret_bind', Proc.bind_assoc]
  refine convert1 raw ?_ hs (List.length_pos_iff.2 hne) _
  rw [flat_vals (k := ws.length), List.length_map]
  intro r hr
  obtain ⟨e, he, rfl⟩ := List.mem_map.1 hr
  exact hm e (hp.mem_iff.1 he)

theorem varWidths_ok {nbits : ℕ} (hb : nbits ≤ 24) : ∀ w ∈ varWidths nbits, w ≤ 48 := by
  intro w hw
  simp only [varWidths, List.mem_cons, List.not_mem_nil, or_false] at hw
  omega

theorem linWidths_ok {nbits d : ℕ} (hb : nbits ≤ 24) : ∀ w ∈ linWidths d nbits, w ≤ 48 := by
  intro w hw
  obtain ⟨i, -, rfl⟩ := List.mem_map.1 hw
  split_ifs <;> omega

theorem linWidths_sum {nbits d : ℕ} (hd : 1 ≤ d) (hn : 0 < nbits) : 0 < (linWidths d nbits).sum := by
  have h : nbits * (if d ≤ 0 then 2 else 1) ∈ linWidths d nbits := List.mem_map.2 ⟨0, List.mem_range.2 (by rw [numFields_eq hd]; omega), rfl⟩
  have := List.single_le_sum (l := linWidths d nbits) (by simp) _ h
  split_ifs at this <;> omega

theorem half0 (c : StoreCfg) (g : StoreRng) {nbits : ℕ} (hn : 0 < nbits) (coef : ℕ → ℤ) {b : Batch} {o : Bool} (hb : b.byOt = some o) (ok : b.HalvesOk nbits)
    {e : Env} {t1 : Bytes} (ha : b.Arrives nbits e.stream t1) (s : Srv) :
    ∃ G, loopBody false c g nbits coef e s = listen.bind G ∧ ∀ ks, ks ≠ [] → Then0 o (G ks) := by
  cases b <;> simp only [Batch.byOt, Option.some.injEq, reduceCtorEq] at hb <;> subst hb
  case bitSum a b =>
    obtain ⟨r0, r1, h, -⟩ := ha
    obtain ⟨mx, -, q, l⟩ := h.run
    have : loopBody false c g nbits coef e s = (bitSumOp0 a.length (encBitShares a ++ r0) e.junkBit e.rawBit).bind fun r => .ret (.word r, s) := by
      simp only [loopBody, dispatch0, q, Proc.ofOption, Proc.ret_bind', l]
      rfl
    rw [this, bitSumOp0, bitIntake_stream a ok.1, Proc.ofOption, Proc.ret_bind', bitSum0, Proc.bind_assoc]
    refine ⟨_, rfl, fun ks hk => ⟨_, _, _, rfl, ?_⟩⟩
    rw [← List.length_pos_iff] at hk ⊢
    simpa [bitRows_length] using hk
  case intSum a b =>
    obtain ⟨r0, r1, h, -⟩ := ha
    obtain ⟨mx, -, q, l⟩ := h.run
    have : loopBody false c g nbits coef e s = (intSumOp0 nbits a.length (encIntShares a ++ r0) e.junkWord e.raw).bind fun r => .ret (.word r, s) := by
      simp only [loopBody, dispatch0, q, Proc.ofOption, Proc.ret_bind', l]
      rfl
    rw [this, intSumOp0, intIntake_stream nbits ok.2.2 a ok.1, Proc.ofOption, Proc.ret_bind', intSum0, Proc.bind_assoc]
    refine ⟨_, rfl, fun ks hk => ?_⟩
    obtain ⟨k, ks, rfl⟩ := List.exists_cons_of_ne_nil hk
    have hv : ∀ r ∈ intRows (admit (belowBits nbits) a []) e.junkWord e.raw (k :: ks), r.vals.length = [nbits].length := intRows_vals _ _ _ _
    have hl := intRows_length (admit (belowBits nbits) a []) e.junkWord e.raw (k :: ks)
    generalize intRows (admit (belowBits nbits) a []) e.junkWord e.raw (k :: ks) = rows at hv hl
    obtain ⟨r, rows, rfl⟩ := List.exists_cons_of_length_pos (show 0 < rows.length by rw [hl]; simp)
    have h64 : nbits < 64 := ok.2.2
    rw [intsumSender, if_pos (List.all_eq_true.2 fun r hr => by simp [hv r hr]; omega)]
    refine ⟨_, _, _, rfl, ?_⟩
    rw [List.flatMap_cons, ← List.length_pos_iff, List.length_append, senderRow_length _ _ _ fun _ => hv _ (by simp)]
    simp
    omega
  case xor t a b =>
    obtain ⟨r0, r1, h, -⟩ := ha
    obtain ⟨mx, -, q, l⟩ := h.run
    have : loopBody false c g nbits coef e s = (xorOpOp0 t a.length (encIntShares a ++ r0)).bind fun r => .ret (.flag r, s) := by
      cases t <;> simp only [loopBody, dispatch0, q, Proc.ofOption, Proc.ret_bind', l] <;> rfl
    rw [this, xorOpOp0, xorIntake_stream a ok.1, Proc.ofOption, Proc.ret_bind', xorOp0, Proc.bind_assoc]
    exact ⟨_, rfl, fun ks _ => ⟨_, 8, _, rfl, by norm_num⟩⟩
  case max t B a b =>
    obtain ⟨r0, r1, h, -⟩ := ha
    obtain ⟨mx, hB, q, l⟩ := h.run
    have hB := hB _ rfl
    have : loopBody false c g nbits coef e s = (maxOpOp0 t B a.length (encMaxShares a ++ r0)).bind fun r => .ret (.nat r, s) := by
      cases t <;> simp only [loopBody, dispatch0, q, Proc.ofOption, Proc.ret_bind', l, hB] <;> rfl
    rw [this, maxOpOp0, maxIntake_stream B a ok.1 ok.2.2.1 ok.2.2.2.2.1 ok.2.2.2.2.2.1, Proc.ofOption, Proc.ret_bind', maxOp0, Proc.bind_assoc]
    exact ⟨_, rfl, fun ks _ => ⟨_, 8 * (B + 1), _, rfl, by omega⟩⟩
  case var t a b =>
    obtain ⟨r0, r1, h, hv, -⟩ := ha
    obtain ⟨mx, -, q, l⟩ := h.run
    obtain ⟨-, -, hr⟩ := hv.spec
    have hb : nbits ≤ 24 := ok.1
    have : loopBody false c g nbits coef e s = (varOp0 e.fma t nbits a.length r0 coef e.raw s.snip).bind fun r => .ret (.real r.1, { s with snip := r.2 }) := by
      cases t <;> simp only [loopBody, dispatch0, q, Proc.ofOption, Proc.ret_bind', l] <;> rfl
    rw [this, varOp0, checkVar_eq, Proc.ofOption, Proc.ret_bind', show varCircuit.mulGates.length = 1 from rfl, var_intake (by omega) hv, Proc.ofOption,
      Proc.ret_bind', Proc.bind_assoc]
    exact snip_half0 _ coef (varWidths_ok hb) (by simp [varWidths]; omega) _ (fun _ => rfl) _
      (admit_ok _ a [] (fun _ r => r.vals.length = 2) (by simp) fun e he _ => (hr e he).vals) _
  case lin d a b =>
    obtain ⟨r0, r1, h, hv, -⟩ := ha
    obtain ⟨mx, -, q, l⟩ := h.run
    obtain ⟨hb, hd, hsm, -⟩ := ok
    obtain ⟨ci, hc, -, hmul, -⟩ := linCircuit hd hsm
    obtain ⟨-, -, hr⟩ := hv.spec hmul
    obtain ⟨t0, rest0, d0, hv⟩ := hv
    have hdn : (BitVec.ofNat 64 d).toNat = d := by
      rw [BitVec.toNat_ofNat, Nat.mod_eq_of_lt]
      have : d - 1 ≤ linMul d := by unfold linMul; omega
      omega
    have : loopBody false c g nbits coef e s = (linOp0 nbits a.length r0 coef e.raw e.junkLin s.snip).bind fun r => .ret (.lin r.1, { s with snip := r.2 }) := by
      simp only [loopBody, dispatch0, q, Proc.ofOption, Proc.ret_bind', l]
      rfl
    rw [this]
    unfold linOp0
    simp only [d0, Proc.ofOption, Proc.ret_bind', hdn, hc, hmul, lin_intake (by omega : nbits ≤ 31) hv, Proc.bind_assoc]
    refine snip_half0 _ coef (linWidths_ok hb) (linWidths_sum hd hn) _ (by intro i; simp [linWidths, linJunk]) _ ?_ _
    intro x hx
    obtain ⟨y, hy, rfl⟩ := List.mem_map.1 hx
    rw [show (linWidths d nbits).length = numFields d by simp [linWidths]]
    exact admit_ok _ a [] (fun _ r => r.flat.vals.length = numFields d) (by simp) (fun e he _ => flat_length hd (hr e he)) y hy

theorem order_some {α : Type} {ok : α → Bool} {subs : List (Bytes × α)} {o : Map α} (hp : o.Perm (admit ok subs [])) (h : ∃ e ∈ subs, ok e.2 = true) : o ≠ [] := by
  rintro rfl
  obtain ⟨e, he, hk⟩ := h
  have h := C34_first_admissible ok subs e.1
  rw [List.nil_perm.1 hp] at h
  have h' := h.symm
  simp only [firstOf, List.lookup_nil, Option.map_eq_none_iff, List.find?_eq_none] at h'
  exact h' e he (by simp [hk])

theorem half1 (c : StoreCfg) (g : StoreRng) {nbits : ℕ} (hn : 0 < nbits) (coef : ℕ → ℤ) {b : Batch} {o : Bool} (hb : b.byOt = some o) (ok : b.HalvesOk nbits)
    (hs : b.Announces nbits) {e : Env} {t0 : Bytes} (ha : b.Arrives nbits t0 e.stream) (ho : ∀ α : Type, IsOrder (e.ord (α := α))) (s : Srv) :
    ∃ ks G, loopBody true c g nbits coef e s = (announce ks).bind G ∧ ks ≠ [] ∧ (∀ k ∈ ks, k.length = pkLength) ∧ ks.length ≤ b.keys1.length ∧ ks.length < 2 ^ 32 ∧ Then1 o (G ()) := by
  have some1 : ∀ {α : Type} {l : List (Bytes × α)}, l.map (·.1) ≠ [] → ∃ x ∈ l, (fun _ : α => true) x.2 = true := fun {α l} h => by
    cases l with
    | nil => exact absurd rfl h
    | cons x l => exact ⟨x, by simp, rfl⟩
  cases b <;> simp only [Batch.byOt, Option.some.injEq, reduceCtorEq] at hb <;> subst hb
  case bitSum a b =>
    obtain ⟨r0, r1, -, h⟩ := ha
    obtain ⟨mx, -, q, l⟩ := h.run
    have : loopBody true c g nbits coef e s = (bitSumOp1 b.length (encBitShares b ++ r1) e.ord).bind fun r => .ret (.word r, s) := by
      simp only [loopBody, dispatch1, q, Proc.ofOption, Proc.ret_bind', l]
      rfl
    have hp := ho _ (admit (fun _ => true) b [])
    have hon := order_some hp (some1 hs)
    have hol := order_length hp
    have hlen := h.1
    rw [this, bitSumOp1, bitIntake_stream b ok.2, Proc.ofOption, Proc.ret_bind', bitSum1, Proc.bind_assoc]
    exact ⟨_, _, rfl, by simpa using hon, order_keyed hp ok.2, by simpa [Batch.keys1] using hol, by simp; omega, _, _, _, rfl, by simpa using hon⟩
  case intSum a b =>
    obtain ⟨r0, r1, -, h⟩ := ha
    obtain ⟨mx, -, q, l⟩ := h.run
    have : loopBody true c g nbits coef e s = (intSumOp1 nbits b.length (encIntShares b ++ r1) e.ord).bind fun r => .ret (.word r, s) := by
      simp only [loopBody, dispatch1, q, Proc.ofOption, Proc.ret_bind', l]
      rfl
    have hp := ho _ (admit (belowBits nbits) b [])
    have hon := order_some hp (by obtain ⟨x, hx, hv⟩ := hs; exact ⟨x, hx, by simpa [belowBits] using hv⟩)
    have hol := order_length hp
    have hlen := h.1
    rw [this, intSumOp1, intIntake_stream nbits ok.2.2 b ok.2.1, Proc.ofOption, Proc.ret_bind', intSum1, Proc.bind_assoc, intsumReceiver,
      if_pos (List.all_eq_true.2 fun r hr => by obtain ⟨x, -, rfl⟩ := List.mem_map.1 hr; rfl)]
    refine ⟨_, _, rfl, by simpa using hon, order_keyed hp ok.2.1, by simpa [Batch.keys1] using hol, by simp; omega, _, _, _, rfl, ?_⟩
    obtain ⟨x, o, h⟩ := List.exists_cons_of_ne_nil hon
    rw [h, List.map_cons, List.flatMap_cons, ← List.length_pos_iff, List.length_append, rowBits_length _ _ rfl]
    simp
    omega
  case xor t a b =>
    obtain ⟨r0, r1, -, h⟩ := ha
    obtain ⟨mx, -, q, l⟩ := h.run
    have : loopBody true c g nbits coef e s = (xorOpOp1 b.length (encIntShares b ++ r1) e.ord).bind fun r => .ret (.flag r, s) := by
      cases t <;> simp only [loopBody, dispatch1, q, Proc.ofOption, Proc.ret_bind', l] <;> rfl
    have hp := ho _ (admit (fun _ => true) b [])
    have hon := order_some hp (some1 hs)
    have hol := order_length hp
    have hlen := h.1
    rw [this, xorOpOp1, xorIntake_stream b ok.2, Proc.ofOption, Proc.ret_bind', xorOp1, Proc.bind_assoc]
    refine ⟨_, _, rfl, by simpa using hon, order_keyed hp ok.2, by simpa [Batch.keys1] using hol, by simp; omega, _, _, rfl, ?_⟩
    have := List.length_pos_iff.2 hon
    omega
  case max t B a b =>
    obtain ⟨r0, r1, -, h⟩ := ha
    obtain ⟨mx, hB, q, l⟩ := h.run
    have hB := hB _ rfl
    have : loopBody true c g nbits coef e s = (maxOpOp1 B b.length (encMaxShares b ++ r1) e.ord).bind fun r => .ret (.nat r, s) := by
      cases t <;> simp only [loopBody, dispatch1, q, Proc.ofOption, Proc.ret_bind', l, hB] <;> rfl
    have hp := ho _ (admit (fun _ => true) b [])
    have hon := order_some hp (some1 hs)
    have hol := order_length hp
    have hlen := h.1
    rw [this, maxOpOp1, maxIntake_stream B b ok.2.1 ok.2.2.2.1 ok.2.2.2.2.1 ok.2.2.2.2.2.2, Proc.ofOption, Proc.ret_bind', maxOp1, Proc.bind_assoc]
    refine ⟨_, _, rfl, by simpa using hon, order_keyed hp ok.2.1, by simpa [Batch.keys1] using hol, by simp; omega, _, _, rfl, ?_⟩
    have := List.length_pos_iff.2 hon
    omega
  case var t a b =>
    obtain ⟨r0, r1, -, -, h, hv⟩ := ha
    obtain ⟨mx, -, q, l⟩ := h.run
    obtain ⟨-, hk, hr⟩ := hv.spec
    obtain ⟨hb, hne⟩ := ok
    have : loopBody true c g nbits coef e s = (varOp1 nbits b.length r1 coef e.raw s.snip e.ord).bind fun r => .ret (.real r.1, { s with snip := r.2 }) := by
      cases t <;> simp only [loopBody, dispatch1, q, Proc.ofOption, Proc.ret_bind', l] <;> rfl
    have hp := ho _ (admit (varFits nbits) b [])
    have hon := order_some hp hne
    have hol := order_length hp
    have hlen := h.1
    rw [this, varOp1, checkVar_eq, Proc.ofOption, Proc.ret_bind', show varCircuit.mulGates.length = 1 from rfl, var_intake (by omega) hv, Proc.ofOption,
      Proc.ret_bind', Proc.bind_assoc]
    obtain ⟨G, hG, hT⟩ := snip_half1 varCircuit coef (ws := varWidths nbits) (by simp [varWidths]; omega) e.raw s.snip (C34_keys_once (varFits nbits) b) hp
      (admit_ok _ b [] (fun _ r => r.vals.length = 2) (by simp) fun e he _ => (hr e he).vals) hon _
    exact ⟨_, G, hG, by simpa using hon, order_keyed hp hk, by simpa [Batch.keys1] using hol, by simp; omega, hT⟩
  case lin d a b =>
    obtain ⟨r0, r1, -, -, h, hv⟩ := ha
    obtain ⟨mx, -, q, l⟩ := h.run
    obtain ⟨hb, hd, hsm, hne⟩ := ok
    obtain ⟨ci, hc, -, hmul, -⟩ := linCircuit hd hsm
    obtain ⟨-, hk, hr⟩ := hv.spec hmul
    obtain ⟨t1, rest1, d1, hv⟩ := hv
    have hdn : (BitVec.ofNat 64 d).toNat = d := by
      rw [BitVec.toNat_ofNat, Nat.mod_eq_of_lt]
      have : d - 1 ≤ linMul d := by unfold linMul; omega
      omega
    have : loopBody true c g nbits coef e s = (linOp1 nbits b.length r1 coef e.raw s.snip e.ord).bind fun r => .ret (.lin r.1, { s with snip := r.2 }) := by
      simp only [loopBody, dispatch1, q, Proc.ofOption, Proc.ret_bind', l]
      rfl
    have hp := ho _ (admit (linFits nbits) b [])
    have hon := order_some hp hne
    have hol := order_length hp
    have hlen := h.1
    rw [this]
    unfold linOp1
    simp only [d1, Proc.ofOption, Proc.ret_bind', hdn, hc, hmul, lin_intake (by omega : nbits ≤ 31) hv, Proc.bind_assoc]
    have hfk : ∀ x : Map LinRow, (flatRows x).map (·.1) = x.map (·.1) := fun x => by simp [flatRows, Function.comp_def]
    obtain ⟨G, hG, hT⟩ := snip_half1 ci coef (ws := linWidths d nbits) (linWidths_sum hd hn) e.raw s.snip (m := flatRows (admit (linFits nbits) b []))
      (o := flatRows (e.ord (admit (linFits nbits) b []))) (by rw [Map.keys, hfk]; exact C34_keys_once (linFits nbits) b) (hp.map _) (by
        intro x hx
        obtain ⟨y, hy, rfl⟩ := List.mem_map.1 hx
        rw [show (linWidths d nbits).length = numFields d by simp [linWidths]]
        exact admit_ok _ b [] (fun _ r => r.flat.vals.length = numFields d) (by simp) (fun e he _ => flat_length hd (hr e he)) y hy)
      (by simpa [flatRows] using hon) _
    rw [hfk] at hG
    exact ⟨_, G, hG, by simpa using hon, order_keyed hp hk, by simpa [Batch.keys1] using hol, by simp; omega, hT⟩

theorem then_stuck {o : Bool} {P0 : Proc α} {P1 : Proc β} (h0 : Then0 o P0) (h1 : Then1 (!o) P1) :
    ∃ t, Steps ⟨P0, P1, [], []⟩ t ∧ t.p0.Waits t.q10 ∧ t.p1.Waits t.q01 ∧ Stuck t := by
  cases o
  · obtain ⟨bs, n, k, rfl, hn⟩ := h0
    obtain ⟨ch, cs, k1, rfl, hc⟩ := h1
    refine ⟨_, .one (.send0 ..), hn, hc, fun t ht => ?_⟩
    cases ht with
    | recv0 _ _ _ _ _ h => simp at h; omega
  · obtain ⟨ch, ps, k, rfl, hc⟩ := h0
    obtain ⟨n, k1, rfl, hn⟩ := h1
    refine ⟨_, .refl _, hc, hn, fun t ht => ?_⟩
    cases ht with
    | recv1 _ _ _ _ _ h => simp at h; omega

/-- A query `z` is sent to server 1 only, then a query `b` to both, one of them BIT_SUM, INT_SUM, VAR, STDDEV or LINREG, the other one AND, OR, MAX or MIN. Both servers wait for each
other for ever: server 0 serves `b` while server 1 still serves `z`. Whatever is submitted afterwards (`rest0`, `rest1`) is never looked at. The theorem also covers
a query `b` sent to server 0 only, followed by a query `z` to both. -/
theorem C76_false_stray_other (c : StoreCfg) {g0 g1 : StoreRng} (hg : GoodRng intModulus g0) {nbits : ℕ} (hn : 0 < nbits) (coef : ℕ → ℤ) {b z : Batch} {o : Bool}
    (hb : b.byOt = some o) (hz : z.byOt = some (!o)) (ok0 : b.HalvesOk nbits) (ok1 : z.HalvesOk nbits) (hsome : z.Announces nbits) {e0 ez : Env} {t0 t1 : Bytes}
    (h0 : b.Arrives nbits e0.stream t1) (h1 : z.Arrives nbits t0 ez.stream) (ho : ∀ α : Type, IsOrder (ez.ord (α := α))) (hd : Canon ez.draw intModulus)
    (rest0 rest1 : List Env) {y : Shared} {s0 s1 : Srv} (hs : InStep y s0 s1) :
    Deadlock (session false c g0 nbits coef (e0 :: rest0) s0) (session true c g1 nbits coef (ez :: rest1) s1) := by
  obtain ⟨s0', s1', hP, -, -, -⟩ := loopHead_pair c (g1 := g1) hg hs hd e0.draw
  obtain ⟨G0, hG0, w0⟩ := half0 c g0 hn coef hb ok0 h0 s0'
  obtain ⟨ks, G1, hG1, hne, hkl, -, hl, w1⟩ := half1 c g1 hn coef hz ok1 hsome h1 ho s1'
  have more0 : ∀ {δ : Type} (K : Answer × Srv → Proc δ), Then0 o ((G0 ks).bind K) := fun {δ} K => by
    have := w0 ks hne
    cases o
    · obtain ⟨bs, n, k, h, hn⟩ := this; rw [h]; exact ⟨_, _, _, rfl, hn⟩
    · obtain ⟨ch, ps, k, h, hn⟩ := this; rw [h]; exact ⟨_, _, _, rfl, hn⟩
  have more1 : ∀ {δ : Type} (K : Answer × Srv → Proc δ), Then1 (!o) ((G1 ()).bind K) := fun {δ} K => by
    cases o
    · obtain ⟨ch, cs, k, h, hn⟩ := w1; rw [h]; exact ⟨_, _, _, rfl, hn⟩
    · obtain ⟨n, k, h, hn⟩ := w1; rw [h]; exact ⟨_, _, rfl, hn⟩
  have tail : ∀ (K0 : Answer × Srv → Proc (List Answer × Srv)) (K1 : Answer × Srv → Proc (List Answer × Srv)),
      ∃ t, Steps ⟨(loopBody false c g0 nbits coef e0 s0').bind K0, (loopBody true c g1 nbits coef ez s1').bind K1, [], []⟩ t ∧
        t.p0.Waits t.q10 ∧ t.p1.Waits t.q01 ∧ Stuck t := by
    intro K0 K1
    rw [hG0, hG1, Proc.bind_assoc, Proc.bind_assoc]
    obtain ⟨t, h, hw⟩ := then_stuck (more0 K0) (more1 K1)
    exact ⟨t, (listen_pair ks hkl hl _ _ _ _).trans h, hw⟩
  have hall : ∃ t, Steps ⟨session false c g0 nbits coef (e0 :: rest0) s0, session true c g1 nbits coef (ez :: rest1) s1, [], []⟩ t ∧
      t.p0.Waits t.q10 ∧ t.p1.Waits t.q01 ∧ Stuck t := by
    rw [session, session, iteration_split, iteration_split]
    simp only [Proc.bind_assoc]
    obtain ⟨t, h, hw⟩ := tail _ _
    exact ⟨t, (hP _ _ _ _).trans h, hw⟩
  obtain ⟨t, ⟨N, hN⟩, hw0, hw1, hst⟩ := hall
  refine ⟨t, hw0, hw1, hst, fun u ⟨m, hu⟩ => ?_, C52_no_infinite_schedule ⟨N, hN⟩ hst⟩
  obtain ⟨_, z1, z2⟩ := C52_schedule_independent hN hst hu
  exact ⟨⟨_, z1⟩, z2⟩

theorem deadlock_of {c : StoreCfg} {g0 g1 : StoreRng} (hg : GoodRng intModulus g0) {nbits : ℕ} (coef : ℕ → ℤ) {e0 e1 : Env} (hd : Canon e1.draw intModulus)
    (rest0 rest1 : List Env) {y : Shared} {s0 s1 : Srv} (hs : InStep y s0 s1)
    (H : ∀ s0' s1' : Srv, s0'.Ready c → s1'.Ready c → ∀ (K0 : Answer × Srv → Proc (List Answer × Srv)) (K1 : Answer × Srv → Proc (List Answer × Srv)),
      ∃ t, Steps ⟨(loopBody false c g0 nbits coef e0 s0').bind K0, (loopBody true c g1 nbits coef e1 s1').bind K1, [], []⟩ t ∧
        t.p0.Waits t.q10 ∧ t.p1.Waits t.q01 ∧ Stuck t) :
    Deadlock (session false c g0 nbits coef (e0 :: rest0) s0) (session true c g1 nbits coef (e1 :: rest1) s1) := by
  obtain ⟨s0', s1', hP, -, r0, r1⟩ := loopHead_pair c (g1 := g1) hg hs hd e0.draw
  have hall : ∃ t, Steps ⟨session false c g0 nbits coef (e0 :: rest0) s0, session true c g1 nbits coef (e1 :: rest1) s1, [], []⟩ t ∧
      t.p0.Waits t.q10 ∧ t.p1.Waits t.q01 ∧ Stuck t := by
    rw [session, session, iteration_split, iteration_split]
    simp only [Proc.bind_assoc]
    obtain ⟨t, h, hw⟩ := H s0' s1' r0 r1 _ _
    exact ⟨t, (hP _ _ _ _).trans h, hw⟩
  obtain ⟨t, ⟨N, hN⟩, hw0, hw1, hst⟩ := hall
  refine ⟨t, hw0, hw1, hst, fun u ⟨m, hu⟩ => ?_, C52_no_infinite_schedule ⟨N, hN⟩ hst⟩
  obtain ⟨_, z1, z2⟩ := C52_schedule_independent hN hst hu
  exact ⟨⟨_, z1⟩, z2⟩

/-! ## FREQ next to an operation that begins with an oblivious transfer -/

theorem freq_convert_waits {c : StoreCfg} {g : StoreRng} {sv : Bool} {rows : List (List Bool)} {st : Store} (hp : 0 < rows.flatten.length)
    (h32 : rows.flatten.length < 2 ^ 32) (hd : rows.flatten.length ≤ st.dabits.length) (K : List ℤ × Store → Proc α) :
    ∃ bs n k, (freqConvert c g sv rows st).bind K = .send bs (.recv n k) ∧ 0 < n := by
  rw [freqConvert, if_pos h32, b2aSingle_full hd]
  exact ⟨_, (rows.flatten.length + 7) / 8, _, rfl, by omega⟩

theorem freq_half1 {c : StoreCfg} {g : StoreRng} {w : ℕ} {ord : Map (List Bool)} {st : Store} (hp : 0 < (ord.map (·.2)).flatten.length)
    (h32 : (ord.map (·.2)).flatten.length < 2 ^ 32) (hd : (ord.map (·.2)).flatten.length ≤ st.dabits.length) (K : Ret (List ℤ) × Store → Proc α) :
    ∃ G, (freq1 c g w ord st).bind K = (announce (ord.map (·.1))).bind G ∧ ∃ bs n k, G () = .send bs (.recv n k) ∧ 0 < n := by
  rw [freq1, Proc.bind_assoc]
  refine ⟨_, rfl, ?_⟩
  rw [Proc.bind_assoc]
  exact freq_convert_waits hp h32 hd _

theorem freq_half0 {c : StoreCfg} {g : StoreRng} {w total : ℕ} {m : Map (List Bool)} {st : Store} (K : Ret (List ℤ) × Store → Proc α) :
    ∃ G, (freq0 c g w total m st).bind K = (rdSize.toProc.bind fun n => (recvKeysInto total 0 n.toNat).bind G) ∧
      ∀ ks : List Bytes, 0 < (ks.map (freqRow0 w m)).flatten.length → (ks.map (freqRow0 w m)).flatten.length < 2 ^ 32 →
        (ks.map (freqRow0 w m)).flatten.length ≤ st.dabits.length → ∃ bs n k, G ks = .send bs (.recv n k) ∧ 0 < n := by
  rw [freq0, Proc.bind_assoc]
  simp only [Proc.bind_assoc]
  exact ⟨_, rfl, fun ks hp h32 hd => freq_convert_waits hp h32 hd _⟩

/-- A FREQ query is sent to server 1 only, then a BIT_SUM, INT_SUM, VAR, STDDEV or LINREG query `b` to both; or `b` to server 0 only, then FREQ to both. Both servers
wait for each other for ever. The daBits needed are at hand when the loop begins (`hda`); otherwise more are made first, which is not treated. -/
theorem C76_false_stray_freq1 (c : StoreCfg) {g0 g1 : StoreRng} (hg : GoodRng intModulus g0) {nbits : ℕ} (hn : 0 < nbits) (h30 : nbits ≤ 30) (coef : ℕ → ℤ) {b : Batch}
    (hb : b.byOt = some true) (ok0 : b.HalvesOk nbits) {fa fb : List (Bytes × List Bool)} (hne : fb ≠ []) (h32 : fb.length * 2 ^ nbits < 2 ^ 32)
    (hda : fb.length * 2 ^ nbits ≤ c.batch * c.nbits / 2) {e0 ez : Env} {t0 t1 : Bytes}
    (h0 : b.Arrives nbits e0.stream t1) (h1 : (Batch.freq fa fb).Arrives nbits t0 ez.stream) (ho : ∀ α : Type, IsOrder (ez.ord (α := α)))
    (hd : Canon ez.draw intModulus) (rest0 rest1 : List Env) {y : Shared} {s0 s1 : Srv} (hs : InStep y s0 s1) :
    Deadlock (session false c g0 nbits coef (e0 :: rest0) s0) (session true c g1 nbits coef (ez :: rest1) s1) := by
  refine deadlock_of hg coef hd rest0 rest1 hs fun s0' s1' _ hr K0 K1 => ?_
  obtain ⟨G0, hG0, w0⟩ := half0 c g0 hn coef hb ok0 h0 s0'
  obtain ⟨r0, r1, -, -, h, hv⟩ := h1
  obtain ⟨mx, -, q, l⟩ := h.run
  obtain ⟨-, hk, hw⟩ := hv.spec
  have hp := ho _ (admit anyRow fb [])
  have hon := order_some hp (by obtain ⟨x, l, rfl⟩ := List.exists_cons_of_ne_nil hne; exact ⟨x, by simp, rfl⟩)
  have hol := order_length hp
  have hkey := order_keyed hp hk
  have e1 : loopBody true c g1 nbits coef ez s1' = (freq1 c g1 (2 ^ nbits) (ez.ord (admit anyRow fb [])) s1'.cor).bind fun r =>
      .ret (.hist r.1, { s1' with cor := r.2 }) := by
    have : loopBody true c g1 nbits coef ez s1' = (freqOp1 c g1 nbits fb.length r1 ez.ord s1'.cor).bind fun r => .ret (.hist r.1, { s1' with cor := r.2 }) := by
      simp only [loopBody, dispatch1, q, Proc.ofOption, Proc.ret_bind', l]
      rfl
    rw [this]
    obtain ⟨r, e⟩ := hv
    unfold freqOp1 freqWidth freqIntake
    rw [if_pos h30, Proc.ofOption, Proc.ret_bind', e]; rfl
  have hfl : (((ez.ord (admit anyRow fb [])).map (·.2)).flatten).length = (ez.ord (admit anyRow fb [])).length * 2 ^ nbits := by
    rw [length_flatten_const _ (2 ^ nbits), List.length_map]
    intro x hx
    obtain ⟨u, hu, rfl⟩ := List.mem_map.1 hx
    exact admit_ok anyRow fb [] (fun _ r => r.length = 2 ^ nbits) (by simp) (fun e he _ => hw e he) u (hp.mem_iff.1 hu)
  have hle : (ez.ord (admit anyRow fb [])).length * 2 ^ nbits ≤ fb.length * 2 ^ nbits := Nat.mul_le_mul_right _ hol
  have hpos : 0 < (ez.ord (admit anyRow fb [])).length * 2 ^ nbits := Nat.mul_pos (List.length_pos_iff.2 hon) (by positivity)
  have h32' : (ez.ord (admit anyRow fb [])).length < 2 ^ 32 := lt_of_le_of_lt hol h.1
  obtain ⟨G1, hG1, bs, n, k1, hS, hn0⟩ := freq_half1 (c := c) (g := g1) (w := 2 ^ nbits) (ord := ez.ord (admit anyRow fb [])) (st := s1'.cor) (by omega) (by omega)
    (le_trans (by omega) hr.da) fun r => (Proc.ret (Answer.hist r.1, { s1' with cor := r.2 })).bind K1
  rw [hG0, e1, Proc.bind_assoc, Proc.bind_assoc, hG1]
  obtain ⟨ch, ps, k, hG, hps⟩ := w0 _ (show (ez.ord (admit anyRow fb [])).map (·.1) ≠ [] by simpa using hon)
  have tail : ∃ t, Steps ⟨(G0 ((ez.ord (admit anyRow fb [])).map (·.1))).bind K0, G1 (), [], []⟩ t ∧ t.p0.Waits t.q10 ∧ t.p1.Waits t.q01 ∧ Stuck t := by
    rw [hG, hS]
    refine ⟨_, .one (.send1 ..), hps, hn0, fun t ht => ?_⟩
    cases ht with
    | recv1 _ _ _ _ _ h => simp at h; omega
  obtain ⟨t, ht, hw⟩ := tail
  exact ⟨t, (listen_pair _ hkey (by simpa [Map.keys] using h32') _ _ _ _).trans ht, hw⟩

/-- The same with FREQ at server 0 and the other query at server 1. Server 0 has room for as many keys as it has submissions (`hcap`). -/
theorem C76_false_stray_freq0 (c : StoreCfg) {g0 g1 : StoreRng} (hg : GoodRng intModulus g0) {nbits : ℕ} (hn : 0 < nbits) (h30 : nbits ≤ 30) (coef : ℕ → ℤ) {z : Batch}
    (hz : z.byOt = some true) (ok1 : z.HalvesOk nbits) (hsome : z.Announces nbits) {fa fb : List (Bytes × List Bool)} (hcap : z.keys1.length ≤ fa.length)
    (h32 : z.keys1.length * 2 ^ nbits < 2 ^ 32) (hda : z.keys1.length * 2 ^ nbits ≤ c.batch * c.nbits / 2) {e0 ez : Env} {t0 t1 : Bytes}
    (h0 : (Batch.freq fa fb).Arrives nbits e0.stream t1) (h1 : z.Arrives nbits t0 ez.stream) (ho : ∀ α : Type, IsOrder (ez.ord (α := α)))
    (hd : Canon ez.draw intModulus) (rest0 rest1 : List Env) {y : Shared} {s0 s1 : Srv} (hs : InStep y s0 s1) :
    Deadlock (session false c g0 nbits coef (e0 :: rest0) s0) (session true c g1 nbits coef (ez :: rest1) s1) := by
  refine deadlock_of hg coef hd rest0 rest1 hs fun s0' s1' hr _ K0 K1 => ?_
  obtain ⟨ks, G1, hG1, hne, hkl, hle, hl, w1⟩ := half1 c g1 hn coef hz ok1 hsome h1 ho s1'
  obtain ⟨r0, r1, h, hv, -⟩ := h0
  obtain ⟨mx, -, q, l⟩ := h.run
  obtain ⟨-, -, hw⟩ := hv.spec
  have e1 : loopBody false c g0 nbits coef e0 s0' = (freq0 c g0 (2 ^ nbits) fa.length (admit anyRow fa []) s0'.cor).bind fun r =>
      .ret (.hist r.1, { s0' with cor := r.2 }) := by
    have : loopBody false c g0 nbits coef e0 s0' = (freqOp0 c g0 nbits fa.length r0 s0'.cor).bind fun r => .ret (.hist r.1, { s0' with cor := r.2 }) := by
      simp only [loopBody, dispatch0, q, Proc.ofOption, Proc.ret_bind', l]
      rfl
    rw [this]
    obtain ⟨r, e⟩ := hv
    unfold freqOp0 freqWidth freqIntake
    rw [if_pos h30, Proc.ofOption, Proc.ret_bind', e]; rfl
  have hfl : ((ks.map (freqRow0 (2 ^ nbits) (admit anyRow fa []))).flatten).length = ks.length * 2 ^ nbits := by
    rw [length_flatten_const _ (2 ^ nbits), List.length_map]
    intro x hx
    obtain ⟨k, -, rfl⟩ := List.mem_map.1 hx
    rw [freqRow0, C34_first_admissible]
    exact firstOf_length hw k
  have hle' : ks.length * 2 ^ nbits ≤ z.keys1.length * 2 ^ nbits := Nat.mul_le_mul_right _ hle
  have hpos : 0 < ks.length * 2 ^ nbits := Nat.mul_pos (List.length_pos_iff.2 hne) (by positivity)
  obtain ⟨G0, hG0, hw0⟩ := freq_half0 (c := c) (g := g0) (w := 2 ^ nbits) (total := fa.length) (m := admit anyRow fa []) (st := s0'.cor)
    fun r => (Proc.ret (Answer.hist r.1, { s0' with cor := r.2 })).bind K0
  obtain ⟨bs, n, k, hS, hn0⟩ := hw0 ks (by omega) (by omega) (le_trans (by omega) hr.da)
  obtain ⟨ch, cs, k1, hG, hcs⟩ := w1
  rw [hG1, e1, Proc.bind_assoc, Proc.bind_assoc, hG0]
  have tail : ∃ t, Steps ⟨G0 ks, (G1 ()).bind K1, [], []⟩ t ∧ t.p0.Waits t.q10 ∧ t.p1.Waits t.q01 ∧ Stuck t := by
    rw [hG, hS]
    refine ⟨_, .one (.send0 ..), hn0, hcs, fun t ht => ?_⟩
    cases ht with
    | recv0 _ _ _ _ _ h => simp at h; omega
  obtain ⟨t, ht, hw⟩ := tail
  exact ⟨t, (steps_listenInto fa.length ks hkl hl (by omega) G0 (fun u => (G1 u).bind K1) []).trans ht, hw⟩

theorem Deadlock.not_always {P0 : Proc α} {P1 : Proc β} {a : α} {b : β} (h : Deadlock P0 P1) : ¬ Always P0 P1 a b := by
  intro h'
  obtain ⟨t, hw, -, -, h1, -⟩ := h
  rw [← (h1 _ (h'.1 _ (.refl _)).1).2 (stuck_done a b [] [])] at hw
  exact hw

/-! ## Examples -/

/-- An OR query behind one stray bit. -/
example (c : StoreCfg) {g0 g1 : StoreRng} (hg : GoodRng intModulus g0) (coef : ℕ → ℤ) (rest0 rest1 : List Env) {y : Shared} {s0 s1 : Srv} (hs : InStep y s0 s1) :
    Deadlock (session false c g0 8 coef (plainEnv (encInit ⟨4, 1, 0⟩ ++ encIntShares [(keyA, 5#64)]) :: rest0) s0)
      (session true c g1 8 coef (plainEnv (encInit ⟨1, 1, 0⟩ ++ encBitShares [(keyB, true)]) :: rest1) s1) := by
  have op0 : Opens 4#32 1 none (plainEnv (encInit ⟨4, 1, 0⟩ ++ encIntShares [(keyA, 5#64)])).stream (encIntShares [(keyA, 5#64)] ++ []) :=
    ⟨by simp, 0, by simp, by simp [plainEnv]⟩
  have op1 : Opens 1#32 1 none (plainEnv (encInit ⟨1, 1, 0⟩ ++ encBitShares [(keyB, true)])).stream (encBitShares [(keyB, true)] ++ []) :=
    ⟨by simp, 0, by simp, by simp [plainEnv]⟩
  exact C76_false_stray_other c hg (by norm_num) coef (b := .xor false [(keyA, 5#64)] [(keyA, 5#64)]) (z := .bitSum [(keyB, true)] [(keyB, true)]) rfl rfl
    (by simp [Batch.HalvesOk, Batch.Ok, Keyed, keyA, pkLength]) (by simp [Batch.HalvesOk, Batch.Ok, Keyed, keyB, pkLength]) (by simp [Batch.Announces, Batch.keys1])
    ⟨_, _, op0, op0⟩ ⟨_, _, op1, op1⟩ (plain_order _) (by simp only [Canon, plainEnv]; decide) rest0 rest1 hs

/-- A VAR query (one submission of zeros) at server 1 next to an AND query at server 0. -/
example (c : StoreCfg) {g0 g1 : StoreRng} (hg : GoodRng intModulus g0) (coef : ℕ → ℤ) (rest0 rest1 : List Env) {y : Shared} {s0 s1 : Srv} (hs : InStep y s0 s1) :
    Deadlock (session false c g0 8 coef (plainEnv (encInit ⟨3, 1, 0⟩ ++ encIntShares [(keyA, 5#64)]) :: rest0) s0)
      (session true c g1 8 coef (plainEnv (encInit ⟨7, 1, 0⟩ ++ List.replicate 120 0#8) :: rest1) s1) := by
  have h : VarStream 1 (List.replicate 120 0#8) [(List.replicate 32 0#8, ⟨[0#64, 0#64], ⟨[0], 0, 0, 0, [0, 0], ⟨0, 0, 0⟩⟩⟩)] := ⟨[], by decide +kernel⟩
  have op0 : Opens 3#32 1 none (plainEnv (encInit ⟨3, 1, 0⟩ ++ encIntShares [(keyA, 5#64)])).stream (encIntShares [(keyA, 5#64)] ++ []) :=
    ⟨by simp, 0, by simp, by simp [plainEnv]⟩
  have op1 : Opens 7#32 1 none (plainEnv (encInit ⟨7, 1, 0⟩ ++ List.replicate 120 0#8)).stream (List.replicate 120 0#8) := ⟨by simp, 0, by simp, rfl⟩
  exact C76_false_stray_other c hg (by norm_num) coef (b := .xor true [(keyA, 5#64)] [(keyA, 5#64)])
    (z := .var false [(List.replicate 32 0#8, ⟨[0#64, 0#64], ⟨[0], 0, 0, 0, [0, 0], ⟨0, 0, 0⟩⟩⟩)]
      [(List.replicate 32 0#8, ⟨[0#64, 0#64], ⟨[0], 0, 0, 0, [0, 0], ⟨0, 0, 0⟩⟩⟩)]) rfl rfl
    (by simp [Batch.HalvesOk, Batch.Ok, Keyed, keyA, pkLength]) ⟨by norm_num, _, List.mem_cons_self .., by decide⟩ (by simp [Batch.Announces, Batch.keys1])
    ⟨_, _, op0, op0⟩ ⟨_, _, op1, h, op1, h⟩ (plain_order _) (by simp only [Canon, plainEnv]; decide) rest0 rest1 hs

/-- A FREQ query (two values, one submission) at one server next to a BIT_SUM query at the other one. -/
example {g0 g1 : StoreRng} (hg : GoodRng intModulus g0) (coef : ℕ → ℤ) (rest0 rest1 : List Env) {y : Shared} {s0 s1 : Srv} (hs : InStep y s0 s1) :
    Deadlock (session false ⟨16, 1, false⟩ g0 1 coef (plainEnv (encInit ⟨1, 1, 0⟩ ++ encBitShares [(keyB, true)]) :: rest0) s0)
        (session true ⟨16, 1, false⟩ g1 1 coef (plainEnv (encInit ⟨10, 1, 0⟩ ++ (encFreqShares [(keyA, [true, false])] ++ [])) :: rest1) s1) ∧
      Deadlock (session false ⟨16, 1, false⟩ g0 1 coef (plainEnv (encInit ⟨10, 1, 0⟩ ++ (encFreqShares [(keyA, [true, false])] ++ [])) :: rest0) s0)
        (session true ⟨16, 1, false⟩ g1 1 coef (plainEnv (encInit ⟨1, 1, 0⟩ ++ encBitShares [(keyB, true)]) :: rest1) s1) := by
  have hf : FreqStream 2 1 (encFreqShares [(keyA, [true, false])] ++ []) [(keyA, [true, false])] :=
    freq_stream (subs := [(keyA, [true, false])]) (by simp [keyA, pkLength]) []
  have op0 : Opens 10#32 1 none (plainEnv (encInit ⟨10, 1, 0⟩ ++ (encFreqShares [(keyA, [true, false])] ++ []))).stream
      (encFreqShares [(keyA, [true, false])] ++ []) := ⟨by simp, 0, by simp, rfl⟩
  have op1 : Opens 1#32 1 none (plainEnv (encInit ⟨1, 1, 0⟩ ++ encBitShares [(keyB, true)])).stream (encBitShares [(keyB, true)] ++ []) :=
    ⟨by simp, 0, by simp, by simp [plainEnv]⟩
  have ok : (Batch.bitSum [(keyB, true)] [(keyB, true)]).HalvesOk 1 := by simp [Batch.HalvesOk, Batch.Ok, Keyed, keyB, pkLength]
  have af : ∀ s, Opens 10#32 1 none s (encFreqShares [(keyA, [true, false])] ++ []) → (Batch.freq [(keyA, [true, false])] [(keyA, [true, false])]).Arrives 1 s s :=
    fun s h => ⟨_, _, h, hf, h, hf⟩
  exact ⟨C76_false_stray_freq1 _ hg (by norm_num) (by norm_num) coef (b := .bitSum [(keyB, true)] [(keyB, true)]) rfl ok (by simp) (by simp) (by simp) ⟨_, _, op1, op1⟩ (af _ op0)
      (plain_order _) (by simp only [Canon, plainEnv]; decide) rest0 rest1 hs,
    C76_false_stray_freq0 _ hg (by norm_num) (by norm_num) coef (z := .bitSum [(keyB, true)] [(keyB, true)]) rfl ok (by simp [Batch.Announces, Batch.keys1])
      (by simp [Batch.keys1]) (by simp [Batch.keys1]) (by simp [Batch.keys1]) (af _ op0) ⟨_, _, op1, op1⟩
      (plain_order _) (by simp only [Canon, plainEnv]; decide) rest0 rest1 hs⟩

/-- Two INT_SUM queries with different keys meet the hypotheses of `C76_false_twelve_bytes_int`. -/
example : OneKind 4 [(Batch.intSum [(keyA, 3#64)] [(keyA, 5#64)], plainEnv (encInit ⟨2, 1, 0⟩ ++ encIntShares [(keyA, 3#64)]),
      plainEnv (encInit ⟨2, 1, 0⟩ ++ encIntShares [(keyA, 5#64)])),
    (Batch.intSum [(keyB, 1#64)] [(keyB, 2#64)], plainEnv (encInit ⟨2, 1, 0⟩ ++ encIntShares [(keyB, 1#64)]),
      plainEnv (encInit ⟨2, 1, 0⟩ ++ encIntShares [(keyB, 2#64)]))] := by
  have op : ∀ l : List (Bytes × U64), l.length = 1 → Opens 2#32 l.length none (encInit ⟨2, 1, 0⟩ ++ encIntShares l) (encIntShares l ++ []) := fun l h =>
    ⟨by omega, 0, by simp, by rw [h, List.append_nil]; rfl⟩
  refine ⟨by simp [Batch.Like], ?_, ?_, by simp [Batch.keys0], ?_, ?_, ?_⟩
  · simp [Batch.HalvesOk, Batch.Ok, Keyed]; decide
  · simp only [List.mem_cons, List.not_mem_nil, or_false, forall_eq_or_imp, forall_eq]
    exact ⟨⟨[], [], op _ rfl, op _ rfl⟩, ⟨[], [], op _ rfl, op _ rfl⟩⟩
  · simp [Batch.keys0, Batch.keys1, List.Disjoint]; decide
  · simp only [List.mem_cons, List.not_mem_nil, or_false, forall_eq_or_imp, forall_eq]
    exact ⟨plain_order _, plain_order _⟩
  · simp only [List.mem_cons, List.not_mem_nil, or_false, forall_eq_or_imp, forall_eq, Canon, plainEnv]
    decide

end Verif

import Verif.ModelStart
import Verif.PropsArgs
import Verif.PropsStale

/-!
# C72: the command lines of the two servers
-/

namespace Verif

/-- C72: with the number of the server, two ports and a width, all written as decimal numbers, the server starts with exactly this number and
width; other server numbers are refused; fewer than three arguments are reported. -/
theorem C72_start {prog ss sp0 sp1 sb : String} {k p0 p1 b : ℕ} (hk : Writes ss k) (h0 : Writes sp0 p0) (h1 : Writes sp1 p1) (hb : Writes sb b)
    (lk : k < 2 ^ 31) (l0 : p0 < 2 ^ 31) (l1 : p1 < 2 ^ 31) (lb : b < 2 ^ 31) (more : List String) :
    serverStart (prog :: ss :: sp0 :: sp1 :: sb :: more) = (if k = 0 then .runs false b else if k = 1 then .runs true b else .failed) ∧
    serverStart [prog, ss, sp0, sp1] = (if k = 0 then .runs false 0 else if k = 1 then .runs true 0 else .failed) ∧
    ∀ argv : List String, argv.length < 4 → serverStart argv = .usage := by
  have e0 : (BitVec.ofNat 32 k = 0#32) ↔ k = 0 := by
    constructor
    · intro h
      have := congrArg BitVec.toNat h
      rw [BitVec.toNat_ofNat] at this
      simp at this
      omega
    · rintro rfl; rfl
  have e1 : (BitVec.ofNat 32 k = 1#32) ↔ k = 1 := by
    constructor
    · intro h
      have := congrArg BitVec.toNat h
      rw [BitVec.toNat_ofNat] at this
      simp at this
      omega
    · rintro rfl; rfl
  have eb : (BitVec.ofNat 32 b).toNat = b := by
    rw [BitVec.toNat_ofNat]; omega
  refine ⟨?_, ?_, fun argv h => if_pos h⟩
  · unfold serverStart serverBits
    rw [if_neg (by simp)]
    simp only [List.getElem?_cons_succ, List.getElem?_cons_zero, Option.bind_some, C70_atoi hk lk, C70_atoi h0 l0, C70_atoi h1 l1, C70_atoi hb lb,
      Option.map_some, eb, e0, e1]
  · unfold serverStart serverBits
    rw [if_neg (by simp)]
    simp only [List.getElem?_cons_succ, List.getElem?_cons_zero, List.getElem?_nil, Option.bind_some, C70_atoi hk lk, C70_atoi h0 l0, C70_atoi h1 l1,
      e0, e1]

/-- What of C72 holds: two servers whose command lines give the numbers 0 and 1 and the same width run any session as C47 says. -/
theorem C72_same_width_partial {prog0 prog1 z0 z1 p0 p1 q0 q1 w0 w1 : String} {m0 m1 n0 n1 nbits : ℕ} (hz0 : Writes z0 0) (hz1 : Writes z1 1)
    (hp0 : Writes p0 m0) (hp1 : Writes p1 m1) (hq0 : Writes q0 n0) (hq1 : Writes q1 n1) (hw0 : Writes w0 nbits) (hw1 : Writes w1 nbits)
    (lm0 : m0 < 2 ^ 31) (lm1 : m1 < 2 ^ 31) (ln0 : n0 < 2 ^ 31) (ln1 : n1 < 2 ^ 31) (lb : nbits < 2 ^ 31) (more0 more1 : List String)
    {g0 g1 : StoreRng} (hg : GoodRng intModulus g0) (gen : Bytes → ℕ → ℤ) {draw : ℤ} (hd : Canon draw intModulus) (d0 : ℤ) (seed mine : Bytes)
    (rs : List (Batch × Env × Env)) (hr : ∀ r ∈ rs, RoundOk nbits r) :
    ∃ P0 P1, serverProgram (prog0 :: z0 :: p0 :: q0 :: w0 :: more0) g0 d0 seed.length seed gen (rs.map (·.2.1)) = some P0 ∧
      serverProgram (prog1 :: z1 :: p1 :: q1 :: w1 :: more1) g1 draw seed.length mine gen (rs.map (·.2.2)) = some P1 ∧
      ∃ as s0' s1' y', Always P0 P1 (as, s0') (rs.map (·.1.quiet), s1') ∧
        SessionAnswers nbits (gen seed) ⟨draw, 0, 0⟩ rs as y' ∧ InStep y' s0' s1' := by
  have e0 := (C72_start (prog := prog0) hz0 hp0 hq0 hw0 (by norm_num) lm0 ln0 lb more0).1
  have e1 := (C72_start (prog := prog1) hz1 hp1 hq1 hw1 (by norm_num) lm1 ln1 lb more1).1
  rw [if_pos rfl] at e0
  rw [if_neg one_ne_zero, if_pos rfl] at e1
  refine ⟨startedServer false nbits g0 d0 seed.length seed gen (rs.map (·.2.1)), startedServer true nbits g1 draw seed.length mine gen (rs.map (·.2.2)),
    by rw [serverProgram, e0], by rw [serverProgram, e1], ?_⟩
  exact C47_main_partial _ hg gen hd d0 seed mine rs hr

/-! ## Readers that take a fixed number of bytes -/

/-- The reader takes exactly `N` bytes, whatever they are, and is never undefined. -/
def Exact {α : Type} : ℕ → Rd α → Prop
  | N, .ret _ => N = 0
  | _, .bad => False
  | N, .get n k => n ≤ N ∧ ∀ bs : Bytes, bs.length = n → Exact (N - n) (k bs)

theorem Exact.bind {α β : Type} {f : α → Rd β} {M : ℕ} (hf : ∀ a, Exact M (f a)) : ∀ {r : Rd α} {N : ℕ}, Exact N r → Exact (N + M) (r.bind f)
  | .ret a, N, h => by
    have h : N = 0 := h
    subst h
    rw [Nat.zero_add]; exact hf a
  | .bad, _, h => h.elim
  | .get n k, N, h => by
    refine ⟨by have := h.1; omega, fun bs hb => ?_⟩
    rw [show N + M - n = N - n + M by have := h.1; omega]
    exact Exact.bind hf (h.2 bs hb)

theorem Exact.bindRet {α β : Type} {f : α → β} {r : Rd α} {N : ℕ} (h : Exact N r) : Exact N (r.bind fun a => .ret (f a)) :=
  Exact.bind (M := 0) (fun a => show Exact 0 (Rd.ret (f a)) from rfl) h

theorem exact_bools (n : ℕ) : Exact ((n + 7) / 8) (rdBools n) := ⟨le_rfl, fun _ _ => Nat.sub_self _⟩

private theorem exact_fmpzs_aux (M : ℕ) (hM : 0 < M) (rd : ℕ → Rd (List ℤ)) (hrd : ∀ n, rd n = if M < n then
      .get (8 * M) fun bs => (rd (n - M)).bind fun r => .ret (fmpzsOf M bs ++ r) else .get (8 * n) fun bs => .ret (fmpzsOf n bs)) (n : ℕ) :
    Exact (8 * n) (rd n) := by
  induction n using Nat.strong_induction_on with
  | _ n ih =>
    rw [hrd]
    split
    · next h =>
      refine ⟨by omega, fun bs _ => ?_⟩
      rw [show 8 * n - 8 * M = 8 * (n - M) by omega]
      exact (ih (n - M) (by omega)).bindRet
    · exact ⟨le_rfl, fun _ _ => Nat.sub_self _⟩

theorem exact_fmpzs (n : ℕ) : Exact (8 * n) (rdFmpzs n) :=
  exact_fmpzs_aux maxFmpzBatch maxFmpzBatch_pos rdFmpzs (fun n => by rw [rdFmpzs]; rfl) n

theorem exact_chunk (n : ℕ) : Exact (8 * n + (n + 7) / 8) (rdDaBitChunk n) := (exact_fmpzs n).bind fun _ => (exact_bools n).bindRet

private theorem exact_dabits_aux (M : ℕ) (hM : 0 < M) (hd : 8 ∣ M) (rd : ℕ → Rd (List DaBit)) (hrd : ∀ n, rd n = if M < n then
      (rdDaBitChunk M).bind fun a => (rd (n - M)).bind fun b => .ret (a ++ b) else rdDaBitChunk n) (n : ℕ) :
    Exact (8 * n + (n + 7) / 8) (rd n) := by
  induction n using Nat.strong_induction_on with
  | _ n ih =>
    rw [hrd]
    split
    · next h =>
      rw [show 8 * n + (n + 7) / 8 = (8 * M + (M + 7) / 8) + (8 * (n - M) + (n - M + 7) / 8) by omega]
      exact (exact_chunk M).bind fun _ => (ih (n - M) (by omega)).bindRet
    · exact exact_chunk n

/-- `n` daBits take `8n` bytes and one bit each. -/
theorem exact_dabits (n : ℕ) : Exact (8 * n + (n + 7) / 8) (rdDaBits n) :=
  exact_dabits_aux maxDabitBatch maxDabitBatch_pos (by decide) rdDaBits rdDaBits_eq n

theorem Exact.length {α : Type} {a : α} {rest : Bytes} : ∀ {r : Rd α} {N : ℕ}, Exact N r → ∀ {q : Bytes}, r.run q = some (a, rest) → q.length = N + rest.length
  | .ret b, N, h, q, hr => by
    have h : N = 0 := h
    simp only [Rd.run, Option.some.injEq, Prod.mk.injEq] at hr
    rw [hr.2, h, Nat.zero_add]
  | .bad, _, h, _, _ => h.elim
  | .get n k, N, h, q, hr => by
    rw [Rd.run] at hr
    split at hr
    · cases hr
    · next hn =>
      have := Exact.length (h.2 (q.take n) (by rw [List.length_take]; omega)) hr
      rw [List.length_drop] at this
      have := h.1
      omega

/-- With too few bytes under way the reader comes to a point where it waits. -/
theorem Exact.waits {α γ δ : Type} (f : α → Proc δ) (P0 : Proc γ) (b : Bytes) : ∀ {r : Rd α} {N : ℕ}, Exact N r → ∀ {q : Bytes}, q.length < N →
    ∃ n k q', Steps ⟨P0, r.toProc.bind f, q, b⟩ ⟨P0, .recv n k, q', b⟩ ∧ q'.length < n
  | .ret _, N, h, q, hq => by
    have h : N = 0 := h
    omega
  | .bad, _, h, _, _ => h.elim
  | .get n k, N, h, q, hq => by
    by_cases hn : n ≤ q.length
    · obtain ⟨m, k', q', hs, hl⟩ := Exact.waits f P0 b (h.2 (q.take n) (by rw [List.length_take]; omega)) (q := q.drop n)
        (by rw [List.length_drop]; have := h.1; omega)
      exact ⟨m, k', q', .head (.recv1 n P0 (fun bs => (k bs).toProc.bind f) q b hn) hs, hl⟩
    · exact ⟨n, _, q, .refl _, by omega⟩

/-! ## Programs that send nothing before they have received something -/

/-- The program has ended with a result as described, or is undefined, or waits for at least one byte. -/
def Silent {α : Type} (post : α → Prop) : Proc α → Prop
  | .ret a => post a
  | .fault => True
  | .recv n _ => 0 < n
  | _ => False

theorem Silent.bind {α β : Type} {post : α → Prop} {post' : β → Prop} {f : α → Proc β} (hf : ∀ a, post a → Silent post' (f a)) :
    ∀ {P : Proc α}, Silent post P → Silent post' (P.bind f)
  | .ret a, h => hf a h
  | .fault, _ => trivial
  | .recv _ _, h => h
  | .send _ _, h => h.elim
  | .otSend _ _ _, h => h.elim
  | .otRecv _ _ _, h => h.elim

theorem silent_option {α : Type} (o : Option α) : Silent (fun a => o = some a) (Proc.ofOption o) := by
  cases o with
  | none => exact trivial
  | some a => exact rfl

theorem silent_listen {β : Type} (post : β → Prop) (f : List Bytes → Proc β) : Silent post (listen.bind f) := by
  unfold listen rdSize
  rw [Proc.bind_assoc]
  show 0 < 8
  norm_num

theorem silent_snip {β : Type} (post : β → Prop) (c : Circuit) (coef : ℕ → ℤ) (ws : List ℕ) (raw : ℕ → ℕ → ℕ → U64) (junk : ℕ → List U64) (st : SnipState)
    (m : Map SnipRow) (f : List ℤ × ℕ × SnipState → Proc β) : Silent post ((snipOp0 c coef ws raw junk st m).bind f) := by
  unfold snipOp0
  rw [Proc.bind_assoc]
  exact silent_listen _ _

/-- Server 0 answers nothing, and changes nothing, before it has heard from server 1. -/
theorem silent_dispatch (c : StoreCfg) (g : StoreRng) (nbits : ℕ) (coef : ℕ → ℤ) (e : Env) (s : Srv) :
    Silent (fun r => r = (Answer.idle, s)) (dispatch0 c g nbits coef e s) := by
  unfold dispatch0
  refine (silent_option _).bind fun m _ => ?_
  dsimp only
  split
  · unfold bitSumOp0 bitSum0
    rw [Proc.bind_assoc]
    refine (silent_option _).bind fun _ _ => ?_
    rw [Proc.bind_assoc]; exact silent_listen _ _
  split
  · unfold intSumOp0 intSum0
    rw [Proc.bind_assoc]
    refine (silent_option _).bind fun _ _ => ?_
    rw [Proc.bind_assoc]; exact silent_listen _ _
  split
  · unfold xorOpOp0 xorOp0
    rw [Proc.bind_assoc]
    refine (silent_option _).bind fun _ _ => ?_
    rw [Proc.bind_assoc]; exact silent_listen _ _
  split
  · unfold xorOpOp0 xorOp0
    rw [Proc.bind_assoc]
    refine (silent_option _).bind fun _ _ => ?_
    rw [Proc.bind_assoc]; exact silent_listen _ _
  split
  · unfold maxOpOp0 maxOp0
    rw [Proc.bind_assoc]
    refine (silent_option _).bind fun _ _ => ?_
    rw [Proc.bind_assoc]; exact silent_listen _ _
  split
  · unfold maxOpOp0 maxOp0
    rw [Proc.bind_assoc]
    refine (silent_option _).bind fun _ _ => ?_
    rw [Proc.bind_assoc]; exact silent_listen _ _
  split
  · unfold varOp0
    rw [Proc.bind_assoc]
    refine (silent_option _).bind fun _ _ => ?_
    rw [Proc.bind_assoc]
    refine (silent_option _).bind fun _ _ => ?_
    rw [Proc.bind_assoc]; exact silent_snip _ _ _ _ _ _ _ _ _
  split
  · unfold varOp0
    rw [Proc.bind_assoc]
    refine (silent_option _).bind fun _ _ => ?_
    rw [Proc.bind_assoc]
    refine (silent_option _).bind fun _ _ => ?_
    rw [Proc.bind_assoc]; exact silent_snip _ _ _ _ _ _ _ _ _
  split
  · unfold linOp0
    rw [Proc.bind_assoc]
    refine (silent_option _).bind fun _ _ => ?_
    dsimp only
    rw [Proc.bind_assoc]
    refine (silent_option _).bind fun _ _ => ?_
    rw [Proc.bind_assoc]
    refine (silent_option _).bind fun _ _ => ?_
    rw [Proc.bind_assoc]; exact silent_snip _ _ _ _ _ _ _ _ _
  split
  · unfold freqOp0 freq0 rdSize
    rw [Proc.bind_assoc]
    refine (silent_option _).bind fun _ _ => ?_
    rw [Proc.bind_assoc]
    refine (silent_option _).bind fun _ _ => ?_
    show 0 < 8
    norm_num
  · exact rfl

/-- A session of server 0 that needs no new daBits. -/
theorem silent_session (c : StoreCfg) (g : StoreRng) (nbits : ℕ) (coef : ℕ → ℤ) {s : Srv} (hu : s.snip.uses ≤ 1000000)
    (hst : c.batch * c.nbits / 2 ≤ s.cor.dabits.length) : ∀ es : List Env,
    Silent (fun r => r = (List.replicate es.length Answer.idle, s)) (session false c g nbits coef es s)
  | [] => rfl
  | e :: es => by
    have hi : iteration false c g nbits coef e s = dispatch0 c g nbits coef e s := by
      unfold iteration
      rw [maybeRefresh_none hu, maybeUpdate_full g false hst]
      rfl
    unfold session
    rw [hi]
    refine (silent_dispatch c g nbits coef e s).bind fun r hr => ?_
    subst hr
    refine (silent_session c g nbits coef hu hst es).bind fun q hq => ?_
    subst hq
    rfl

/-! ## Different widths -/

/-- The first daBits of a server, for any program that follows. -/
theorem first_update (c : StoreCfg) (g : StoreRng) (sv : Bool) (hb : 2 ≤ c.batch) (hn : 0 < c.nbits) :
    maybeUpdate intModulus c g sv ⟨[], [], 0⟩ = addDaBits intModulus c g sv (2 * c.nbits * c.batch) ⟨[], [], 0⟩ := by
  have h2 : 2 * 1 ≤ c.batch * c.nbits := Nat.mul_le_mul hb hn
  have h1 : (0 : ℕ) < 2 * 1 * c.nbits * c.batch := by positivity
  unfold maybeUpdate
  dsimp only
  rw [List.length_nil, if_pos (show 0 < c.batch * c.nbits / 2 by omega), if_pos h1, Nat.mul_one]

theorem no_update (c : StoreCfg) (g : StoreRng) (sv : Bool) (hn : c.nbits = 0) (s : Store) : maybeUpdate intModulus c g sv s = .ret s := by
  unfold maybeUpdate
  dsimp only
  rw [hn, Nat.mul_zero, Nat.zero_mul, if_neg (by omega)]

/-- The daBits that server 0 makes and those it sends. -/
def lazyFirst (g : StoreRng) (num : ℕ) : List (DaBit × DaBit) := (firstN (g.lz 0) num).map fun d => makeLocalDaBit intModulus d.1 d.2

theorem lazyFirst_fits (g : StoreRng) (n : ℕ) : ∀ d ∈ (lazyFirst g n).map (·.2), Fits d.bp := by
  intro d hd
  obtain ⟨x, hx, rfl⟩ := List.mem_map.1 hd
  obtain ⟨y, -, rfl⟩ := List.mem_map.1 hx
  refine fits_of_canon' goodModulus ?_
  exact ⟨Int.emod_nonneg _ (by decide), Int.emod_lt_of_pos _ (by decide)⟩

theorem add_lazy0 (c : StoreCfg) (g : StoreRng) (hl : c.lazy = true) {n : ℕ} (hn : c.batch ≤ n) :
    ∃ bs, encDaBits ((lazyFirst g n).map (·.2)) = some bs ∧ bs.length = 8 * n + (n + 7) / 8 ∧
      addDaBits intModulus c g false n ⟨[], [], 0⟩ = .send bs (.ret ⟨(lazyFirst g n).map (·.1), [], 1⟩) := by
  have hnum : (if n > c.batch then n else c.batch) = n := by split <;> omega
  obtain ⟨bs, he, hr⟩ := C14_dabits_roundtrip _ (lazyFirst_fits g n)
  have hlen : ((lazyFirst g n).map (·.2)).length = n := by simp [lazyFirst]
  rw [hlen] at hr
  refine ⟨bs, he, by simpa using (exact_dabits n).length (rest := []) hr.run_eq, ?_⟩
  unfold addDaBits
  dsimp only
  rw [hnum, if_pos hl, if_neg (by decide)]
  show ((Proc.putOpt (encDaBits ((lazyFirst g n).map (·.2)))).bind _).bind _ = _
  rw [he]
  rfl

/-- Every schedule comes to the same end, in which server 1 still waits for bytes of server 0, and server 0 has given no answer: it is waiting too,
or it is undefined, or all its clients were idle. -/
def NeverServes {α : Type} (P0 : Proc (List Answer × α)) (P1 : Proc (List Answer × α)) : Prop :=
  ∃ t : Sys (List Answer × α) (List Answer × α), (∃ n k, t.p1 = .recv n k) ∧ (∀ as s, t.p0 = .ret (as, s) → ∀ a ∈ as, a = Answer.idle) ∧
    (∀ u, Steps ⟨P0, P1, [], []⟩ u → Steps u t ∧ (Stuck u → u = t)) ∧ Stuck t ∧
    ¬ ∃ f : ℕ → Sys (List Answer × α) (List Answer × α), f 0 = ⟨P0, P1, [], []⟩ ∧ ∀ i, Step (f i) (f (i + 1))

/-- The exchange of check point and seed at the start, for any programs that follow. -/
theorem start_leads {c0 c1 : StoreCfg} {g0 g1 : StoreRng} {n0 n1 : ℕ} (gen : Bytes → ℕ → ℤ) {draw : ℤ} (hd : Canon draw intModulus) (d0 : ℤ) (seed mine : Bytes)
    (es0 es1 : List Env) : Steps ⟨serverMain false c0 g0 n0 d0 seed.length seed gen es0, serverMain true c1 g1 n1 draw seed.length mine gen es1, [], []⟩
      ⟨session false c0 g0 n0 (gen seed) es0 ⟨⟨RootTables.start, [], draw, 0, 0⟩, ⟨[], [], 0⟩⟩,
        session true c1 g1 n1 (gen seed) es1 ⟨⟨RootTables.start, [], draw, 0, 0⟩, ⟨[], [], 0⟩⟩, [], []⟩ := by
  have hseed : Pair (syncSnipSeeds false seed.length seed) (syncSnipSeeds true seed.length mine) seed seed := by
    unfold syncSnipSeeds
    rw [if_neg (by decide), if_pos rfl]
    have hrd : Reads (Rd.get seed.length .ret) seed seed := Reads.get rfl (Reads.ret _)
    have := (Pair.send01 hrd).bind (Q0 := fun _ => Proc.ret seed) (Q1 := Proc.ret) (Pair.ret seed seed)
    rwa [Proc.bind_ret] at this
  unfold serverMain
  exact (syncRandomX_pair hd d0 _ _ _ _).trans (hseed _ _ _ _)

/-- C72 is false for a server 0 with the smaller width (or none): whatever the connections, the schedule and the draws, server 1 waits for ever for
daBits which server 0 does not make, and nobody gets an answer. No message tells of it. -/
theorem C72_false_smaller_at_0 {b0 b1 : ℕ} (hlt : b0 < b1) {g0 g1 : StoreRng} (gen : Bytes → ℕ → ℤ) {draw : ℤ}
    (hd : Canon draw intModulus) (d0 : ℤ) (seed mine : Bytes) (es0 : List Env) {es1 : List Env} (he1 : es1 ≠ []) :
    NeverServes (startedServer false b0 g0 d0 seed.length seed gen es0) (startedServer true b1 g1 draw seed.length mine gen es1) := by
  unfold startedServer
  set S : Srv := ⟨⟨RootTables.start, [], draw, 0, 0⟩, ⟨[], [], 0⟩⟩ with hS
  have h1 := start_leads (c0 := ⟨cacheSize, b0, true⟩) (c1 := ⟨cacheSize, b1, true⟩) (g0 := g0) (g1 := g1) (n0 := b0) (n1 := b1) gen hd d0 seed mine es0 es1
  -- server 0 sends its daBits, if any, and is silent then
  have h0 : ∃ (P0 : Proc (List Answer × Srv)) (q : Bytes), q.length < 8 * (2 * b1 * cacheSize) + (2 * b1 * cacheSize + 7) / 8 ∧
      (∃ s', Silent (fun r => r = (List.replicate es0.length Answer.idle, s')) P0) ∧
      ∀ P1 : Proc (List Answer × Srv), Steps ⟨session false ⟨cacheSize, b0, true⟩ g0 b0 (gen seed) es0 S, P1, [], []⟩ ⟨P0, P1, q, []⟩ := by
    have hpos : 0 < 2 * b1 * cacheSize := by unfold cacheSize; omega
    cases es0 with
    | nil => exact ⟨.ret ([], S), [], by rw [List.length_nil]; omega, ⟨S, show ([], S) = _ from rfl⟩, fun P1 => .refl _⟩
    | cons e es =>
      rcases Nat.eq_zero_or_pos b0 with hz | hz
      · exact ⟨_, [], by rw [List.length_nil]; omega, ⟨S, silent_session _ _ _ _ (by simp [hS]) (by simp [hz]) _⟩, fun P1 => .refl _⟩
      · obtain ⟨bs, -, hbl, hadd⟩ := add_lazy0 ⟨cacheSize, b0, true⟩ g0 rfl (n := 2 * b0 * cacheSize) (by unfold cacheSize; dsimp only; omega)
        set S' : Srv := ⟨S.snip, ⟨(lazyFirst g0 (2 * b0 * cacheSize)).map (·.1), [], 1⟩⟩ with hS'
        have hfull : (⟨cacheSize, b0, true⟩ : StoreCfg).batch * (⟨cacheSize, b0, true⟩ : StoreCfg).nbits / 2 ≤ S'.cor.dabits.length := by
          have : S'.cor.dabits.length = 2 * b0 * cacheSize := by simp [hS', lazyFirst]
          rw [this]
          unfold cacheSize
          dsimp only
          omega
        have hses : session false ⟨cacheSize, b0, true⟩ g0 b0 (gen seed) (e :: es) S =
            .send bs (session false ⟨cacheSize, b0, true⟩ g0 b0 (gen seed) (e :: es) S') := by
          have hr : maybeRefresh false e.draw S.snip = .ret S.snip := maybeRefresh_none (by simp [hS])
          have hi : iteration false ⟨cacheSize, b0, true⟩ g0 b0 (gen seed) e S = .send bs (dispatch0 ⟨cacheSize, b0, true⟩ g0 b0 (gen seed) e S') := by
            unfold iteration
            rw [hr, show S.cor = ⟨[], [], 0⟩ from rfl, first_update _ g0 false (show 2 ≤ cacheSize by decide) hz, hadd]
            rfl
          have hi' : iteration false ⟨cacheSize, b0, true⟩ g0 b0 (gen seed) e S' = dispatch0 ⟨cacheSize, b0, true⟩ g0 b0 (gen seed) e S' := by
            unfold iteration
            rw [show S'.snip = S.snip from rfl, hr, maybeUpdate_full g0 false hfull]
            rfl
          rw [session, hi, session, hi']
          rfl
        refine ⟨_, bs, ?_, ⟨S', silent_session _ _ _ _ (by simp [hS', hS]) hfull _⟩, fun P1 => by
          rw [hses]; exact .head (.send0 ..) (.refl _)⟩
        rw [hbl]
        unfold cacheSize
        omega
  obtain ⟨P0, q, hq, ⟨s', hsil⟩, hgo⟩ := h0
  -- server 1 reads and waits
  obtain ⟨f1, hf1⟩ : ∃ f1, session true ⟨cacheSize, b1, true⟩ g1 b1 (gen seed) es1 S = (rdDaBits (2 * b1 * cacheSize)).toProc.bind f1 := by
    cases es1 with
    | nil => exact absurd rfl he1
    | cons e es =>
      unfold session iteration
      rw [maybeRefresh_none (by simp [hS]), show S.cor = ⟨[], [], 0⟩ from rfl, first_update _ g1 true (show 2 ≤ cacheSize by decide) (by dsimp only; omega)]
      unfold addDaBits
      dsimp only
      rw [if_pos (show 2 * b1 * cacheSize > cacheSize by unfold cacheSize; omega), if_pos rfl, if_pos rfl]
      rw [Proc.ret_bind']
      simp only [Proc.bind_assoc]
      exact ⟨_, rfl⟩
  obtain ⟨n, k, q', hw, hl⟩ := (exact_dabits (2 * b1 * cacheSize)).waits f1 P0 [] hq
  have hall : Steps _ (⟨P0, .recv n k, q', []⟩ : Sys (List Answer × Srv) (List Answer × Srv)) := (h1.trans (hgo _)).trans (hf1 ▸ hw)
  have hst : Stuck (⟨P0, .recv n k, q', []⟩ : Sys (List Answer × Srv) (List Answer × Srv)) := by
    intro t ht
    cases ht with
    | send0 => exact hsil
    | recv0 m _ _ _ _ h =>
      have : 0 < m := hsil
      simp at h; omega
    | recv1 _ _ _ _ _ h => omega
  obtain ⟨N, hN⟩ := hall
  refine ⟨_, ⟨n, k, rfl⟩, ?_, fun u ⟨m, hu⟩ => ?_, hst, C52_no_infinite_schedule ⟨N, hN⟩ hst⟩
  · intro as s hp a ha
    have hp : P0 = _ := hp
    rw [hp] at hsil
    have hsil : (as, s) = _ := hsil
    rw [Prod.mk.injEq] at hsil
    rw [hsil.1] at ha
    exact (List.mem_replicate.1 ha).2
  · obtain ⟨_, z1, z2⟩ := C52_schedule_independent hN hst hu
    exact ⟨⟨_, z1⟩, z2⟩

/-- C72 from the command lines: server 1 is given a width and server 0 is not (the argument may be left out). -/
theorem C72_false_left_out {prog0 prog1 z0 z1 p0 p1 q0 q1 w : String} {m0 m1 n0 n1 b : ℕ} (hz0 : Writes z0 0) (hz1 : Writes z1 1)
    (hp0 : Writes p0 m0) (hp1 : Writes p1 m1) (hq0 : Writes q0 n0) (hq1 : Writes q1 n1) (hw : Writes w b) (lm0 : m0 < 2 ^ 31) (lm1 : m1 < 2 ^ 31)
    (ln0 : n0 < 2 ^ 31) (ln1 : n1 < 2 ^ 31) (lb : b < 2 ^ 31) (hb : 0 < b) {g0 g1 : StoreRng} (gen : Bytes → ℕ → ℤ) {draw : ℤ}
    (hd : Canon draw intModulus) (d0 : ℤ) (seed mine : Bytes) (es0 : List Env) {es1 : List Env} (he1 : es1 ≠ []) :
    ∃ P0 P1, serverProgram [prog0, z0, p0, q0] g0 d0 seed.length seed gen es0 = some P0 ∧
      serverProgram [prog1, z1, p1, q1, w] g1 draw seed.length mine gen es1 = some P1 ∧ NeverServes P0 P1 := by
  have e0 := (C72_start (prog := prog0) hz0 hp0 hq0 hw (by norm_num) lm0 ln0 lb []).2.1
  have e1 := (C72_start (prog := prog1) hz1 hp1 hq1 hw (by norm_num) lm1 ln1 lb []).1
  rw [if_pos rfl] at e0
  rw [if_neg one_ne_zero, if_pos rfl] at e1
  exact ⟨_, _, by rw [serverProgram, e0], by rw [serverProgram, e1], C72_false_smaller_at_0 hb gen hd d0 seed mine es0 he1⟩

/-! ### The larger width at server 0 -/

/-- The bytes of a list of daBits start with the `bp` of the first. -/
theorem encDaBits_head {d : DaBit} {ds : List DaBit} (hf : ∀ x ∈ d :: ds, Fits x.bp) {bs : Bytes} (he : encDaBits (d :: ds) = some bs) :
    ∃ rest, bs = fmpzBytes d.bp ++ rest := by
  rw [encDaBits_eq] at he
  split at he
  · next hlt =>
    obtain ⟨M, hM⟩ : ∃ M, maxDabitBatch = M + 1 := ⟨319999, rfl⟩
    have e1 : encFmpzs (((d :: ds).take maxDabitBatch).map (·.bp)) = some ((((d :: ds).take maxDabitBatch).map (·.bp)).flatMap fmpzBytes) :=
      encFmpzs_of_fits _ fun x hx => by
        obtain ⟨y, hy, rfl⟩ := List.mem_map.1 hx
        exact hf y (List.mem_of_mem_take hy)
    rw [e1] at he
    simp only [hM, List.take_succ_cons, List.map_cons, List.flatMap_cons] at he
    revert he
    cases encDaBits ((d :: ds).drop (M + 1)) with
    | none => intro he; cases he
    | some b =>
      intro he
      simp only [Option.map_some, Option.some.injEq, List.append_assoc] at he
      exact ⟨_, he.symm⟩
  · rw [encFmpzs_of_fits _ fun x hx => by
        obtain ⟨y, hy, rfl⟩ := List.mem_map.1 hx
        exact hf y hy] at he
    simp only [List.map_cons, List.flatMap_cons] at he
    simp only [Option.map_some, Option.some.injEq, List.append_assoc] at he
    exact ⟨_, he.symm⟩

/-- The first bit of a number on the way. -/
theorem unpack_low (x : ℤ) (hx : 0 ≤ x) (r : Bytes) : unpackBit ((fmpzBytes x ++ r).take 1) 0 = decide (x % 2 = 1) := by
  have h : (fmpzBytes x ++ r).take 1 = [BitVec.ofNat 8 x.toNat] := rfl
  rw [h]
  unfold unpackBit
  have hv : ∀ v : BitVec 8, decide ((v &&& (1#8 <<< 0)) ≠ 0#8) = decide (v.toNat % 2 = 1) := by decide +kernel
  rw [show ([BitVec.ofNat 8 x.toNat] : Bytes).getD (0 / 8) 0#8 = BitVec.ofNat 8 x.toNat from rfl, show 0 % 8 = 0 from rfl, hv, BitVec.toNat_ofNat]
  congr 1
  rw [eq_iff_iff]
  omega

/-- AND and OR of one submission with bytes unread: the first bit on the way is taken for its validity. -/
theorem xor_unread (isAnd : Bool) {k : Bytes} (hk : k.length = pkLength) (x0 x1 : U64) (rest0 rest1 : Bytes) (ord : Map U64 → Map U64) (ho : IsOrder ord)
    (v : Byte) (q : Bytes) :
    RunsTo (v :: q) (xorOpOp0 isAnd 1 (encIntShares [(k, x0)] ++ rest0)) (xorOpOp1 1 (encIntShares [(k, x1)] ++ rest1) ord)
      (.ans (decide ((x0 ^^^ (if unpackBit [v] 0 then x1 else 0#64) = 0#64) ↔ isAnd = true))) .noAns (q ++ encBools [true]) := by
  have hkey : ∀ x : U64, Keyed [(k, x)] := fun x e he => by
    rw [List.mem_singleton] at he
    rw [he]; exact hk
  unfold xorOpOp0 xorOpOp1
  have i0 := xorIntake_stream [(k, x0)] (hkey x0) rest0
  have i1 := xorIntake_stream [(k, x1)] (hkey x1) rest1
  have a0 : ∀ x : U64, admit (fun _ => true) [(k, x)] [] = [(k, x)] := fun x => by simp [admit, List.lookup]
  rw [a0, List.length_singleton] at i0 i1
  rw [i0, i1]
  simp only [Proc.ofOption, Proc.ret_bind']
  have hp : ord [(k, x1)] = [(k, x1)] := List.perm_singleton.1 (ho _)
  rw [hp]
  unfold xorOp0 xorOp1
  refine (listen_runs [k] (by simpa using hk) (by norm_num) _).bind ?_
  intro γ δ k0 k1
  simp only [Proc.bind_assoc]
  refine .head (.send0 ..) ?_
  simp only [Proc.ret_bind']
  have hm : matched [(k, x0)] [k] = [true] := by simp [matched, List.lookup]
  rw [hm]
  have hrd : (rdBools ([(k, x1)] : Map U64).length).run (v :: q ++ encBools [true]) = some ([unpackBit [v] 0], q ++ encBools [true]) := by
    simp [rdBools, Rd.run]
  refine (steps_read1 _ _ _ _ hrd _ _ _).trans ?_
  refine .head (.send1 ..) ?_
  rw [List.nil_append]
  have hrd' := reads_u64 (xorFold [(k, x1)] ([(k, x1)].map (·.1)) [unpackBit [v] 0]) []
  rw [List.append_nil] at hrd'
  refine (steps_read0 rdU64 _ _ _ hrd' _ _ _).trans ?_
  have f0 : xorFold [(k, x0)] [k] [true] = x0 := by simp [xorFold, List.lookup]
  have f1 : xorFold [(k, x1)] ([(k, x1)].map (·.1)) [unpackBit [v] 0] = if unpackBit [v] 0 then x1 else 0#64 := by
    cases unpackBit [v] 0 <;> simp [xorFold, List.lookup]
  rw [f0, f1]
  have hfin : ∀ a : Bool, finish (numTrue [true]) 1 a = .ans a := fun a => by simp [finish, numTrue, belowThreshold]; norm_num [invalidThreshold]
  rw [hfin]
  cases isAnd <;> simp only [if_true, Bool.false_eq_true, if_false, iff_true, iff_false, ne_eq] <;> exact .refl _

/-- The `bp` that server 0 sends first. -/
def firstSent (g : StoreRng) : ℤ := (makeLocalDaBit intModulus (g.lz 0 0).1 (g.lz 0 0).2).2.bp

/-- C72 is false for a server 1 started without a width: server 1 reads none of the daBits of server 0, and in the first operation takes their first
bit for the validity of its only submission, in every schedule. -/
theorem C72_false_larger_at_0 {b0 : ℕ} (hb : 0 < b0) {g0 g1 : StoreRng} (gen : Bytes → ℕ → ℤ) {draw : ℤ} (hd : Canon draw intModulus) (d0 : ℤ)
    (seed mine : Bytes) {isAnd : Bool} {k : Bytes} (hk : k.length = pkLength) {x0 x1 : U64} {e0 e1 : Env} (ho : ∀ α : Type, IsOrder (e1.ord (α := α)))
    (he : (Batch.xor isAnd [(k, x0)] [(k, x1)]).Arrives 0 e0.stream e1.stream) :
    ∃ s0' s1' q, q ≠ [] ∧ Ends (startedServer false b0 g0 d0 seed.length seed gen [e0]) (startedServer true 0 g1 draw seed.length mine gen [e1])
      ([.flag (.ans (decide ((x0 ^^^ (if firstSent g0 % 2 = 1 then x1 else 0#64) = 0#64) ↔ isAnd = true)))], s0') ([.flag .noAns], s1') q [] := by
  obtain ⟨t0, t1, p0, p1⟩ := he
  obtain ⟨m0, -, w0, l0⟩ := p0.run
  obtain ⟨m1, -, w1, l1⟩ := p1.run
  obtain ⟨bs, henc, hbl, hadd⟩ := add_lazy0 ⟨cacheSize, b0, true⟩ g0 rfl (n := 2 * b0 * cacheSize) (by unfold cacheSize; dsimp only; omega)
  obtain ⟨N, hN⟩ : ∃ N, 2 * b0 * cacheSize = N + 1 := ⟨2 * b0 * cacheSize - 1, by unfold cacheSize; omega⟩
  have hcons : (lazyFirst g0 (2 * b0 * cacheSize)).map (·.2) =
      (makeLocalDaBit intModulus (g0.lz 0 0).1 (g0.lz 0 0).2).2 :: ((lazyFirst g0 (2 * b0 * cacheSize)).map (·.2)).tail := by
    rw [hN]
    simp [lazyFirst, firstN, List.range_succ_eq_map]
  have hcan : Canon (firstSent g0) intModulus := ⟨Int.emod_nonneg _ (by decide), Int.emod_lt_of_pos _ (by decide)⟩
  obtain ⟨rest, hrest⟩ : ∃ rest, bs = fmpzBytes (firstSent g0) ++ rest := by
    have hfit := lazyFirst_fits g0 (2 * b0 * cacheSize)
    rw [hcons] at henc hfit
    exact encDaBits_head hfit henc
  have hbyte : bs = BitVec.ofNat 8 (firstSent g0).toNat :: bs.tail := by rw [hrest]; rfl
  have hbit : unpackBit [BitVec.ofNat 8 (firstSent g0).toNat] 0 = decide (firstSent g0 % 2 = 1) := unpack_low _ hcan.1 []
  set S : Srv := ⟨⟨RootTables.start, [], draw, 0, 0⟩, ⟨[], [], 0⟩⟩ with hS
  set S' : Srv := ⟨S.snip, ⟨(lazyFirst g0 (2 * b0 * cacheSize)).map (·.1), [], 1⟩⟩ with hS'
  have hX := xor_unread isAnd hk x0 x1 t0 t1 e1.ord (ho _) (BitVec.ofNat 8 (firstSent g0).toNat) bs.tail
  rw [← hbyte, hbit] at hX
  simp only [decide_eq_true_eq] at hX
  have j0 : iteration false ⟨cacheSize, b0, true⟩ g0 b0 (gen seed) e0 S =
      .send bs ((xorOpOp0 isAnd 1 (encIntShares [(k, x0)] ++ t0)).bind fun r => .ret (.flag r, S')) := by
    unfold iteration
    rw [maybeRefresh_none (by simp [hS]), show S.cor = ⟨[], [], 0⟩ from rfl, first_update _ g0 false (show 2 ≤ cacheSize by decide) hb, hadd]
    cases isAnd <;> simp only [Proc.ret_bind', Proc.bind, dispatch0, w0, Proc.ofOption, l0] <;> rfl
  have j1 : iteration true ⟨cacheSize, 0, true⟩ g1 0 (gen seed) e1 S =
      (xorOpOp1 1 (encIntShares [(k, x1)] ++ t1) e1.ord).bind fun r => .ret (.flag r, S) := by
    unfold iteration
    rw [maybeRefresh_none (by simp [hS]), no_update _ _ _ rfl]
    cases isAnd <;> simp only [Proc.ret_bind', dispatch1, w1, Proc.ofOption, l1] <;> rfl
  refine ⟨S', S, bs.tail ++ encBools [true], by simp [encBools], Ends.ofSteps ?_⟩
  unfold startedServer
  refine (start_leads gen hd d0 seed mine [e0] [e1]).trans ?_
  unfold session session
  rw [← hS, j0, j1]
  refine .head (.send0 ..) ?_
  rw [List.nil_append]
  have hY := (hX.thenRet (fun r => (Answer.flag r, S')) fun r => (Answer.flag r, S)).thenRet
    (fun r => ([r.1], r.2)) fun r => ([r.1], r.2)
  have := hY _ _ Proc.ret Proc.ret
  rw [Proc.bind_ret, Proc.bind_ret] at this
  exact this

/-- Draws of server 0 for which the `bp` sent first is even. -/
def zeroRng : StoreRng := ⟨fun _ _ => (false, 0), fun _ _ => (0, 0), fun _ _ => ⟨false, false, false⟩⟩

/-- C72, a concrete run: one client, value true, AND. Server 1 was started without a width, server 0 with one (any): the answer is false, in every schedule.
With the same width at both servers it is true. -/
theorem C72_false_witness {b0 : ℕ} (hb : 0 < b0) {g1 : StoreRng} (gen : Bytes → ℕ → ℤ) {draw : ℤ} (hd : Canon draw intModulus) (d0 : ℤ) (seed mine : Bytes) :
    let e := plainEnv (encInit ⟨3, 1, 0⟩ ++ encIntShares [(keyA, 5)])
    GoodRng intModulus zeroRng ∧
    (∃ s0' s1' q, q ≠ [] ∧ Ends (startedServer false b0 zeroRng d0 seed.length seed gen [e]) (startedServer true 0 g1 draw seed.length mine gen [e])
      ([.flag (.ans false)], s0') ([.flag .noAns], s1') q []) ∧
    (∃ s0' s1', Always (startedServer false b0 zeroRng d0 seed.length seed gen [e]) (startedServer true b0 g1 draw seed.length mine gen [e])
      ([.flag (.ans true)], s0') ([.flag .noAns], s1')) := by
  have hx : ∀ n, (Batch.xor true [(keyA, 5#64)] [(keyA, 5#64)]).Arrives n (encInit ⟨3, 1, 0⟩ ++ encIntShares [(keyA, 5)])
      (encInit ⟨3, 1, 0⟩ ++ encIntShares [(keyA, 5)]) :=
    fun _ => ⟨[], [], ⟨by decide, 0, by simp, by rw [List.append_nil]; rfl⟩, ⟨by decide, 0, by simp, by rw [List.append_nil]; rfl⟩⟩
  have hg : GoodRng intModulus zeroRng := fun _ _ => ⟨.inl rfl, le_rfl, show (0 : ℤ) < (intModulus : ℤ) - (0 + 1) by decide⟩
  refine ⟨hg, ?_, ?_⟩
  · have h := C72_false_larger_at_0 hb (g0 := zeroRng) (g1 := g1) gen hd d0 seed mine (isAnd := true) (k := keyA) (by decide) (x0 := 5#64) (x1 := 5#64)
      (e0 := plainEnv (encInit ⟨3, 1, 0⟩ ++ encIntShares [(keyA, 5)])) (e1 := plainEnv (encInit ⟨3, 1, 0⟩ ++ encIntShares [(keyA, 5)])) (plain_order _) (hx 0)
    have hf : firstSent zeroRng % 2 = 0 := by decide
    rw [if_neg (by rw [hf]; decide)] at h
    exact h
  · have hk : Keyed [(keyA, 5#64)] := by unfold Keyed; decide
    obtain ⟨as, s0', s1', y', h, hA, -⟩ := C47_main_partial ⟨cacheSize, b0, true⟩ (g1 := g1) hg (nbits := b0) gen hd d0 seed mine
      [(.xor true [(keyA, 5)] [(keyA, 5)], plainEnv (encInit ⟨3, 1, 0⟩ ++ encIntShares [(keyA, 5)]),
        plainEnv (encInit ⟨3, 1, 0⟩ ++ encIntShares [(keyA, 5)]))]
      (by
        intro r hr
        rw [List.mem_singleton] at hr
        subst hr
        exact ⟨hx b0, ⟨hk, hk⟩, plain_order _, by simp only [plainEnv, Canon]; decide⟩)
    obtain ⟨a, as', rfl, ha, rfl, -⟩ := hA
    have : a = .flag (.ans true) := ha.trans (congrArg Answer.flag (by decide))
    subst this
    exact ⟨s0', s1', h⟩

/-- The command lines of the theorems exist, and both widths. -/
example : Writes "0" 0 ∧ Writes "1" 1 ∧ Writes "8800" 8800 ∧ Writes "16" 16 ∧
    serverStart ["server", "0", "8800", "8801"] = .runs false 0 ∧ serverStart ["server", "1", "8800", "8801", "16"] = .runs true 16 ∧
    serverStart ["server", "2", "8800", "8801", "16"] = .failed := by
  refine ⟨⟨by decide, by decide, by decide⟩, ⟨by decide, by decide, by decide⟩, ⟨by decide, by decide, by decide⟩, ⟨by decide, by decide, by decide⟩,
    by decide, by decide, by decide⟩

end Verif

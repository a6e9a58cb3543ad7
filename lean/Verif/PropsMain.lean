import Verif.ModelMain
import Verif.PropsFreq
import Verif.PropsMax
import Verif.PropsLinReg
import Verif.PropsStore

/-!
# Sessions: any number of operations one after the other (C47), the shared check point (C50)
-/

namespace Verif

/-! ## What arrives -/

/-- The submissions of one round at both servers. -/
inductive Batch where
  | idle (type : BitVec 32)
  | bitSum (subs0 subs1 : List (Bytes × Bool))
  | intSum (subs0 subs1 : List (Bytes × U64))
  | xor (isAnd : Bool) (subs0 subs1 : List (Bytes × U64))
  | max (isMax : Bool) (B : ℕ) (subs0 subs1 : List (Bytes × List U64))
  | var (std : Bool) (subs0 subs1 : List (Bytes × SnipRow))
  | lin (d : ℕ) (subs0 subs1 : List (Bytes × LinRow))
  | freq (subs0 subs1 : List (Bytes × List Bool))

/-- A stream that starts with an `initMsg` of type `t`, count `n` and some `max_inp` (the given one, if any), followed by `body`. -/
def Opens (t : BitVec 32) (n : ℕ) (B : Option ℕ) (s body : Bytes) : Prop :=
  n < 2 ^ 32 ∧ ∃ mx : BitVec 32, (∀ b, B = some b → mx.toNat = b) ∧ s = encInit ⟨t, BitVec.ofNat 32 n, mx⟩ ++ body

/-- The streams of the two servers carry the batch, possibly followed by more bytes. -/
def Batch.Arrives (nbits : ℕ) : Batch → Bytes → Bytes → Prop
  | .idle t, s0, s1 => ∃ n0 n1 r0 r1, Opens t n0 none s0 r0 ∧ Opens t n1 none s1 r1
  | .bitSum a b, s0, s1 => ∃ r0 r1, Opens 1#32 a.length none s0 (encBitShares a ++ r0) ∧ Opens 1#32 b.length none s1 (encBitShares b ++ r1)
  | .intSum a b, s0, s1 => ∃ r0 r1, Opens 2#32 a.length none s0 (encIntShares a ++ r0) ∧ Opens 2#32 b.length none s1 (encIntShares b ++ r1)
  | .xor t a b, s0, s1 => ∃ r0 r1, Opens (if t then 3#32 else 4#32) a.length none s0 (encIntShares a ++ r0) ∧
      Opens (if t then 3#32 else 4#32) b.length none s1 (encIntShares b ++ r1)
  | .max t B a b, s0, s1 => ∃ r0 r1, Opens (if t then 5#32 else 6#32) a.length (some B) s0 (encMaxShares a ++ r0) ∧
      Opens (if t then 5#32 else 6#32) b.length (some B) s1 (encMaxShares b ++ r1)
  | .var t a b, s0, s1 => ∃ r0 r1, Opens (if t then 8#32 else 7#32) a.length none s0 r0 ∧ VarStream a.length r0 a ∧
      Opens (if t then 8#32 else 7#32) b.length none s1 r1 ∧ VarStream b.length r1 b
  | .lin d a b, s0, s1 => ∃ r0 r1, Opens 9#32 a.length none s0 r0 ∧ LinStream d a.length r0 a ∧
      Opens 9#32 b.length none s1 r1 ∧ LinStream d b.length r1 b
  | .freq a b, s0, s1 => ∃ r0 r1, Opens 10#32 a.length none s0 r0 ∧ FreqStream (2 ^ nbits) a.length r0 a ∧
      Opens 10#32 b.length none s1 r1 ∧ FreqStream (2 ^ nbits) b.length r1 b

/-- What is required of a batch. Nothing is required of the values submitted, except: at least one submission of VAR and LINREG is in
range at server 1; MAX finds a column (otherwise server 0 crashes, C39); the weights of FREQ do not add up to the number of submissions
(otherwise bytes stay unread, `C47_false_freq`). -/
def Batch.Ok (nbits : ℕ) : Batch → Prop
  | .idle t => t ∉ [1#32, 2#32, 3#32, 4#32, 5#32, 6#32, 7#32, 8#32, 9#32, 10#32]
  | .bitSum a b => Keyed a ∧ Keyed b
  | .intSum a b => Keyed a ∧ Keyed b ∧ nbits < 64
  | .xor _ a b => Keyed a ∧ Keyed b
  | .max _ B a b => Keyed a ∧ Keyed b ∧ RowsOk B a ∧ RowsOk B b ∧ B + 1 < 2 ^ 32 ∧ a.length * (B + 1) < 2 ^ 32 ∧
      b.length * (B + 1) < 2 ^ 32 ∧ (2 * (bothKeys (fun _ => true) a b).card < a.length ∨ ∃ j ≤ B, maxCol a b j ≠ 0#64)
  | .var _ _ b => nbits ≤ 24 ∧ ∃ e ∈ b, varFits nbits e.2 = true
  | .lin d _ b => nbits ≤ 24 ∧ 1 ≤ d ∧ linMul d < 2 ^ 18 ∧ ∃ e ∈ b, linFits nbits e.2 = true
  | .freq a b => nbits ≤ 30 ∧ (keysOf b).card ≤ a.length ∧ (keysOf b).card * 2 ^ nbits < 2 ^ 32 ∧ totalWeight (2 ^ nbits) a b ≠ a.length

/-! ## What the answers have to be -/

/-- The answer of server 0, given the check point `x`, the coefficients and their position, server 1's iteration order, and `fma` (`subSquare`)
for server 0's program. -/
def Batch.Answers (nbits : ℕ) (coef : ℕ → ℤ) (fma : Bool) (ord : {α : Type} → Map α → Map α) (x : ℤ) (pos : ℕ) : Batch → Answer → Prop
  | .idle _, r => r = .idle
  | .bitSum a b, r => r = .word (verdict (bothKeys (fun _ => true) a b).card a.length (BitVec.ofNat 64 (bitCount a b)))
  | .intSum a b, r => r = .word (verdict (bothKeys (belowBits nbits) a b).card a.length
      (BitVec.ofNat 64 (∑ k ∈ bothKeys (belowBits nbits) a b, (intTerm (belowBits nbits) a b k).toNat)))
  | .xor t a b, r => r = .flag (verdict (bothKeys (fun _ => true) a b).card a.length
      (if t then decide (xorAgg a b = 0#64) else decide (xorAgg a b ≠ 0#64)))
  | .max t B a b, r =>
      if 2 * (bothKeys (fun _ => true) a b).card < a.length then r = .nat .invalid
      else ∃ j ≤ B, maxCol a b j ≠ 0#64 ∧ (∀ i, j < i → i ≤ B → maxCol a b i = 0#64) ∧ r = .nat (.ans (if t then j else B - j))
  | .var t a b, r =>
      let G := varCounted x coef pos nbits a b (ord (admit (varFits nbits) b [])).keys
      r = .real (verdict G.card a.length (varAnswer fma t ((∑ k ∈ G, varVal nbits a b 0 k) % intModulus : ℕ)
          ((∑ k ∈ G, varVal nbits a b 1 k) % intModulus : ℕ) G.card))
  | .lin d a b, r => ∃ c, checkLinReg intModulus d = some c ∧
      let G := linCounted c x coef pos nbits a b (ord (admit (linFits nbits) b [])).keys
      ∃ xa ya q, solveLinReg d xa ya = some q ∧ xa.map (·.toNat) = xAcc d G (linAt nbits a b) ∧
        ya.map (·.toNat) = yAcc d G (linAt nbits a b) ∧ r = .lin (verdict G.card a.length q)
  | .freq a b, r => r = .hist (verdict (oneHotKeys (2 ^ nbits) a b).card a.length
      (histogram (2 ^ nbits) (oneHotKeys (2 ^ nbits) a b) (freqVec (2 ^ nbits) a b)))

/-- The answer of server 1: none. -/
def Batch.quiet : Batch → Answer
  | .idle _ => .idle
  | .bitSum _ _ | .intSum _ _ => .word .noAns
  | .xor _ _ _ => .flag .noAns
  | .max _ _ _ _ => .nat .noAns
  | .var _ _ _ => .real .noAns
  | .lin _ _ _ => .lin .noAns
  | .freq _ _ => .hist .noAns

/-- The number of distinct admissible keys at server 1, for the operations that check submissions. -/
def Batch.checks (nbits : ℕ) : Batch → ℕ
  | .var _ _ b => (admit (varFits nbits) b []).length
  | .lin _ _ b => (admit (linFits nbits) b []).length
  | _ => 0

/-- Coefficients drawn per check. -/
def Batch.perCheck : Batch → ℕ
  | .var _ _ _ => 2
  | .lin d _ _ => linMul d + 1
  | _ => 0

/-- What both servers agree on: check point, number of submissions checked with it, number of coefficients drawn. -/
structure Shared where
  x : ℤ
  uses : ℕ
  pos : ℕ

/-- The check point is replaced by server 1's draw once it has been used for more than a million submissions. -/
def Shared.refresh (draw : ℤ) (y : Shared) : Shared := if 1000000 < y.uses then ⟨draw, 0, y.pos⟩ else y

/-- After a batch. -/
def Shared.after (nbits : ℕ) (b : Batch) (y : Shared) : Shared := ⟨y.x, y.uses + b.checks nbits, y.pos + b.checks nbits * b.perCheck⟩

/-- The answers of a session and the values shared at its end. -/
def SessionAnswers (nbits : ℕ) (coef : ℕ → ℤ) : Shared → List (Batch × Env × Env) → List Answer → Shared → Prop
  | y, [], as, y' => as = [] ∧ y' = y
  | y, (b, e0, e) :: bs, as, y' => ∃ a as', as = a :: as' ∧
      b.Answers nbits coef e0.fma e.ord (y.refresh e.draw).x (y.refresh e.draw).pos a ∧
      SessionAnswers nbits coef ((y.refresh e.draw).after nbits b) bs as' y'

/-- The two servers are in step: same check point and counters, caches right for this check point, matching correlated randomness. -/
structure InStep (y : Shared) (s0 s1 : Srv) : Prop where
  sn0 : SnipOk y.x y.uses y.pos s0.snip
  sn1 : SnipOk y.x y.uses y.pos s1.snip
  cor : StoresOk intModulus s0.cor s1.cor

/-! ## The initial message -/

theorem word32_roundtrip (x : BitVec 32) : BitVec.ofNat 32 (leVal (leBytes 4 x.toNat)) = x := by
  rw [leVal_leBytes]
  have h : x.toNat % 256 ^ 4 = x.toNat := Nat.mod_eq_of_lt (by simpa using x.isLt)
  rw [h]; simp

/-- C47: the initial message is read as sent. -/
theorem C47_init_roundtrip (m : InitMsg) : Reads rdInit (encInit m) m := by
  have cons : ∀ (k : Bytes → Rd InitMsg) (a b : Bytes), a.length = 4 → Reads (k a) b m → Reads (.get 4 k) (a ++ b) m := by
    intro k a b ha h rest
    have hn : ¬ (a ++ b ++ rest).length < 4 := by simp only [List.length_append]; omega
    simp only [Rd.run, if_neg hn]
    rw [List.append_assoc, ← ha, List.take_left, List.drop_left]
    exact h rest
  unfold rdInit encInit
  refine cons _ _ _ (leBytes_length _ _) (cons _ _ _ (leBytes_length _ _) ?_)
  have := Reads.getRet (n := 4) (k := fun c => (⟨BitVec.ofNat 32 (leVal (leBytes 4 m.type.toNat)), BitVec.ofNat 32 (leVal (leBytes 4 m.num.toNat)),
    BitVec.ofNat 32 (leVal c)⟩ : InitMsg)) (bs := leBytes 4 m.maxInp.toNat) (leBytes_length _ _)
  rw [word32_roundtrip, word32_roundtrip, word32_roundtrip] at this
  rw [word32_roundtrip, word32_roundtrip]
  exact this

theorem Opens.run {t : BitVec 32} {n : ℕ} {B : Option ℕ} {s body : Bytes} (h : Opens t n B s body) :
    ∃ mx : BitVec 32, (∀ b, B = some b → mx.toNat = b) ∧ rdInit.run s = some (⟨t, BitVec.ofNat 32 n, mx⟩, body) ∧ (BitVec.ofNat 32 n).toNat = n := by
  obtain ⟨hn, mx, hB, rfl⟩ := h
  exact ⟨mx, hB, C47_init_roundtrip _ _, by rw [BitVec.toNat_ofNat, Nat.mod_eq_of_lt hn]⟩

/-! ## The check point -/

theorem checkerPre_again {t : RootTables} {N : ℕ} {x : ℤ} {pre : CheckerPre} (h : checkerPre intModulus t N x = some pre) (x' : ℤ) :
    setCheckerPrecomp intModulus pre.degN pre.deg2N x' = checkerPre intModulus t N x' := by
  unfold checkerPre at h ⊢
  obtain ⟨bN, e1, h⟩ := Option.bind_eq_some_iff.1 h
  obtain ⟨b2N, e2, h⟩ := Option.bind_eq_some_iff.1 h
  rw [e1, Option.bind_some, e2, Option.bind_some]
  unfold setCheckerPrecomp at h
  obtain ⟨xN, e3, h⟩ := Option.bind_eq_some_iff.1 h
  obtain ⟨x2N, e4, h⟩ := Option.map_eq_some_iff.1 h
  rw [← h]

theorem rootCalls_pow {N : ℕ} {l : List ℕ} {t : RootTables} (h : RootCalls (N :: l) t) : 0 < N := by
  cases h with
  | call _ _ _ => exact pow_pos (by norm_num) _

theorem refreshStore_ok {x x' : ℤ} (hx' : Canon x' intModulus) (store : List (ℕ × CheckerPre))
    (h : ∀ e ∈ store, ∃ t l, RootCalls (e.1 :: l) t ∧ checkerPre intModulus t e.1 x = some e.2) :
    ∃ store', refreshStore x' store = some store' ∧
      ∀ e ∈ store', ∃ t l, RootCalls (e.1 :: l) t ∧ checkerPre intModulus t e.1 x' = some e.2 := by
  induction store with
  | nil => exact ⟨[], rfl, by simp⟩
  | cons e store ih =>
    obtain ⟨s', hs', hok'⟩ := ih fun e he => h e (List.mem_cons_of_mem _ he)
    obtain ⟨t, l, hrc, hpre⟩ := h e List.mem_cons_self
    obtain ⟨pre', hpre', -⟩ := checkerPre_ok (rootCalls_pow hrc) ((C02_tables_after_any_history _ _ hrc).1 _ _ rfl) hx'
    refine ⟨(e.1, pre') :: s', ?_, ?_⟩
    · rw [refreshStore, checkerPre_again hpre, hpre', Option.bind_some, hs', Option.map_some]
    · intro e' he'
      rcases List.mem_cons.1 he' with rfl | he'
      · exact ⟨t, l, hrc, hpre'⟩
      · exact hok' e' he'

theorem syncRandomX_pair {draw : ℤ} (hd : Canon draw intModulus) (d0 : ℤ) : Pair (syncRandomX false d0) (syncRandomX true draw) draw draw := by
  unfold syncRandomX
  rw [if_neg (by decide), if_pos rfl, encFmpz_of_fits (fits_canon hd)]
  have h := (Pair.send10 (reads_fmpz (fits_canon hd))).bind (Q0 := Proc.ret) (Q1 := fun _ => Proc.ret draw) (Pair.ret draw draw)
  rw [Proc.bind_ret] at h
  exact h

theorem maybeRefresh_pair {y : Shared} {st0 st1 : SnipState} (h0 : SnipOk y.x y.uses y.pos st0) (h1 : SnipOk y.x y.uses y.pos st1) {draw : ℤ}
    (hd : Canon draw intModulus) (d0 : ℤ) : ∃ st0' st1', Pair (maybeRefresh false d0 st0) (maybeRefresh true draw st1) st0' st1' ∧
      SnipOk (y.refresh draw).x (y.refresh draw).uses (y.refresh draw).pos st0' ∧
      SnipOk (y.refresh draw).x (y.refresh draw).uses (y.refresh draw).pos st1' := by
  unfold maybeRefresh Shared.refresh randomXThreshold
  rw [h0.huses, h1.huses]
  by_cases hu : 1000000 < y.uses
  · rw [if_pos hu, if_pos hu, if_pos hu]
    obtain ⟨s0, e0, k0⟩ := refreshStore_ok hd st0.store h0.store
    obtain ⟨s1, e1, k1⟩ := refreshStore_ok hd st1.store h1.store
    refine ⟨{ st0 with x := draw, uses := 0, store := s0 }, { st1 with x := draw, uses := 0, store := s1 }, ?_, ?_, ?_⟩
    · refine (syncRandomX_pair hd d0).bind ?_
      rw [e0, e1]
      exact Pair.ret _ _
    · exact ⟨rfl, hd, rfl, h0.hpos, h0.tabs, k0⟩
    · exact ⟨rfl, hd, rfl, h1.hpos, h1.tabs, k1⟩
  · rw [if_neg hu, if_neg hu, if_neg hu]
    exact ⟨st0, st1, Pair.ret _ _, h0, h1⟩

/-! ## One round -/

theorem highest (P : ℕ → Prop) {B : ℕ} (h : ∃ j ≤ B, P j) : ∃ j ≤ B, P j ∧ ∀ i, j < i → i ≤ B → ¬ P i := by
  classical
  obtain ⟨j, hj, hp⟩ := h
  have hs := Nat.findGreatest_spec (P := P) hj hp
  exact ⟨Nat.findGreatest P B, Nat.findGreatest_le B, hs, fun i h1 h2 => Nat.findGreatest_is_greatest h1 h2⟩

theorem Pair.thenRet {α β γ δ : Type} {P0 : Proc α} {P1 : Proc β} {a : α} {b : β} (h : Pair P0 P1 a b) (f : α → γ) (g : β → δ) :
    Pair (P0.bind fun r => .ret (f r)) (P1.bind fun r => .ret (g r)) (f a) (g b) := h.bind (Pair.ret _ _)

theorem dispatch_pair (c : StoreCfg) {g0 g1 : StoreRng} (hg : GoodRng intModulus g0) {nbits : ℕ} (coef : ℕ → ℤ) {b : Batch} {e0 e1 : Env}
    (ha : b.Arrives nbits e0.stream e1.stream) (hb : b.Ok nbits) (ho : ∀ α : Type, IsOrder (e1.ord (α := α))) {y : Shared} {s0 s1 : Srv}
    (hs : InStep y s0 s1) :
    ∃ a s0' s1', Pair (dispatch0 c g0 nbits coef e0 s0) (dispatch1 c g1 nbits coef e1 s1) (a, s0') (b.quiet, s1') ∧
      b.Answers nbits coef e0.fma e1.ord y.x y.pos a ∧ InStep (y.after nbits b) s0' s1' := by
  unfold dispatch0 dispatch1
  cases b with
  | idle t =>
    obtain ⟨n0, n1, r0, r1, o0, o1⟩ := ha
    obtain ⟨m0, -, q0, k0⟩ := o0.run
    obtain ⟨m1, -, q1, k1⟩ := o1.run
    simp only [Batch.Ok, List.mem_cons, List.not_mem_nil, or_false, not_or] at hb
    obtain ⟨h1, h2, h3, h4, h5, h6, h7, h8, h9, h10⟩ := hb
    simp only [q0, q1, Proc.ofOption, Proc.bind, h1, h2, h3, h4, h5, h6, h7, h8, h9, h10, if_false]
    exact ⟨_, _, _, Pair.ret _ _, rfl, by simpa [Shared.after, Batch.checks] using hs⟩
  | bitSum a b =>
    obtain ⟨r0, r1, o0, o1⟩ := ha
    obtain ⟨m0, -, q0, k0⟩ := o0.run
    obtain ⟨m1, -, q1, k1⟩ := o1.run
    simp only [q0, q1, Proc.ofOption, Proc.bind, k0, k1, if_true]
    exact ⟨_, s0, s1, (bitSum_pair a b r0 r1 hb.1 hb.2 o1.1 _ (ho _) _ _).thenRet (fun r => (Answer.word r, s0)) fun r => (Answer.word r, s1),
      rfl, by simpa [Shared.after, Batch.checks] using hs⟩
  | intSum a b =>
    obtain ⟨r0, r1, o0, o1⟩ := ha
    obtain ⟨m0, -, q0, k0⟩ := o0.run
    obtain ⟨m1, -, q1, k1⟩ := o1.run
    simp only [q0, q1, Proc.ofOption, Proc.bind, k0, k1, if_true]
    exact ⟨_, s0, s1, (intSum_pair nbits hb.2.2 a b r0 r1 hb.1 hb.2.1 o1.1 _ (ho _) _ _).thenRet (fun r => (Answer.word r, s0))
      fun r => (Answer.word r, s1), rfl, by simpa [Shared.after, Batch.checks] using hs⟩
  | xor t a b =>
    obtain ⟨r0, r1, o0, o1⟩ := ha
    obtain ⟨m0, -, q0, k0⟩ := o0.run
    obtain ⟨m1, -, q1, k1⟩ := o1.run
    refine ⟨_, s0, s1, ?_, rfl, by simpa [Shared.after, Batch.checks] using hs⟩
    cases t <;> simp only [q0, q1, Proc.ofOption, Proc.bind, k0, k1, if_true] <;>
      exact (xorOp_pair _ a b r0 r1 hb.1 hb.2 o1.1 _ (ho _)).thenRet (fun r => (Answer.flag r, s0)) fun r => (Answer.flag r, s1)
  | max t B a b =>
    obtain ⟨r0, r1, o0, o1⟩ := ha
    obtain ⟨m0, j0, q0, k0⟩ := o0.run
    obtain ⟨m1, j1, q1, k1⟩ := o1.run
    obtain ⟨hk0, hk1, hr0, hr1, hB, hl0, hl1, hor⟩ := hb
    have hm0 := j0 _ rfl
    have hm1 := j1 _ rfl
    have key : ∃ a', Pair (maxOpOp0 t B a.length (encMaxShares a ++ r0)) (maxOpOp1 B b.length (encMaxShares b ++ r1) e1.ord) a' .noAns ∧
        Batch.Answers nbits coef e0.fma e1.ord y.x y.pos (.max t B a b) (.nat a') := by
      by_cases hc : 2 * (bothKeys (fun _ => true) a b).card < a.length
      · obtain ⟨u, v, -, hL⟩ := maxOp_leads t B a b r0 r1 hk0 hk1 hr0 hr1 hB hl0 hl1 e1.ord (ho _)
        rw [if_pos ((C48_threshold _ _).2 hc)] at hL
        exact ⟨_, hL.pair, by simp [Batch.Answers, hc]⟩
      · obtain ⟨j, hj, hne, hz⟩ := highest (fun j => maxCol a b j ≠ 0#64) (hor.resolve_left hc)
        exact ⟨_, maxOp_pair t B a b r0 r1 hk0 hk1 hr0 hr1 hB hl0 hl1 e1.ord (ho _) hc j hj hne fun i h1 h2 => not_not.1 (hz i h1 h2), by
          simp only [Batch.Answers, hc, if_false]
          exact ⟨j, hj, hne, fun i h1 h2 => not_not.1 (hz i h1 h2), rfl⟩⟩
    obtain ⟨a', hP, hA⟩ := key
    refine ⟨_, s0, s1, ?_, hA, by simpa [Shared.after, Batch.checks] using hs⟩
    cases t <;> simp only [q0, q1, Proc.ofOption, Proc.bind, k0, k1, hm0, hm1, if_true] <;>
      exact hP.thenRet (fun r => (Answer.nat r, s0)) fun r => (Answer.nat r, s1)
  | var t a b =>
    obtain ⟨r0, r1, o0, v0, o1, v1⟩ := ha
    obtain ⟨m0, -, q0, k0⟩ := o0.run
    obtain ⟨m1, -, q1, k1⟩ := o1.run
    obtain ⟨st0', st1', hP, w0, w1⟩ := var_pair e0.fma t hb.1 o1.1 v0 v1 hb.2 hs.sn0 hs.sn1 coef e0.raw e1.raw e1.ord (ho _)
    have hl : (e1.ord (admit (varFits nbits) b [])).keys.length = (admit (varFits nbits) b []).length := by
      rw [Map.keys, List.length_map, (ho _ _).length_eq]
    rw [hl] at w0 w1
    refine ⟨_, ⟨st0', s0.cor⟩, ⟨st1', s1.cor⟩, ?_, rfl, w0, w1, hs.cor⟩
    cases t <;> simp only [q0, q1, Proc.ofOption, Proc.bind, k0, k1, if_true] <;>
      exact hP.thenRet (fun r => (Answer.real r.1, { s0 with snip := r.2 })) fun r => (Answer.real r.1, { s1 with snip := r.2 })
  | lin d a b =>
    obtain ⟨r0, r1, o0, v0, o1, v1⟩ := ha
    obtain ⟨m0, -, q0, k0⟩ := o0.run
    obtain ⟨m1, -, q1, k1⟩ := o1.run
    obtain ⟨hn, hd, hsm, hne⟩ := hb
    obtain ⟨cc, hcc, -⟩ := linCircuit hd hsm
    obtain ⟨st0', st1', xa, ya, q, hP, hq, hx, hy, w0, w1⟩ := lin_pair hd hsm hn (lt_trans o0.1 (by norm_num)) o1.1 v0 v1 hne hs.sn0 hs.sn1
      coef e0.raw e1.raw e0.junkLin e1.ord (ho _) hcc
    have hl : (e1.ord (admit (linFits nbits) b [])).keys.length = (admit (linFits nbits) b []).length := by
      rw [Map.keys, List.length_map, (ho _ _).length_eq]
    rw [hl] at w0 w1
    refine ⟨_, ⟨st0', s0.cor⟩, ⟨st1', s1.cor⟩, ?_, ⟨cc, hcc, xa, ya, q, hq, hx, hy, rfl⟩, w0, w1, hs.cor⟩
    simp only [q0, q1, Proc.ofOption, Proc.bind, k0, k1, if_true]
    exact hP.thenRet (fun r => (Answer.lin r.1, { s0 with snip := r.2 })) fun r => (Answer.lin r.1, { s1 with snip := r.2 })
  | freq a b =>
    obtain ⟨r0, r1, o0, v0, o1, v1⟩ := ha
    obtain ⟨m0, -, q0, k0⟩ := o0.run
    obtain ⟨m1, -, q1, k1⟩ := o1.run
    obtain ⟨hn, hcap, hsz, hW⟩ := hb
    obtain ⟨st0', st1', hda, -, hP⟩ := freqOp_run c (g1 := g1) hg hn o0.1 v0 v1 hcap hsz hs.cor e1.ord (ho _)
    have hP := hP hW
    refine ⟨_, ⟨s0.snip, st0'⟩, ⟨s1.snip, st1'⟩, ?_, rfl, ?_⟩
    · simp only [q0, q1, Proc.ofOption, Proc.bind, k0, k1, if_true]
      exact hP.thenRet (fun r => (Answer.hist r.1, { s0 with cor := r.2 })) fun r => (Answer.hist r.1, { s1 with cor := r.2 })
    · exact ⟨by simpa [Shared.after, Batch.checks] using hs.sn0, by simpa [Shared.after, Batch.checks] using hs.sn1, hda.ok⟩

theorem iteration_pair (c : StoreCfg) {g0 g1 : StoreRng} (hg : GoodRng intModulus g0) {nbits : ℕ} (coef : ℕ → ℤ) {b : Batch} {e0 e1 : Env}
    (ha : b.Arrives nbits e0.stream e1.stream) (hb : b.Ok nbits) (ho : ∀ α : Type, IsOrder (e1.ord (α := α)))
    (hd : Canon e1.draw intModulus) {y : Shared} {s0 s1 : Srv} (hs : InStep y s0 s1) :
    ∃ a s0' s1', Pair (iteration false c g0 nbits coef e0 s0) (iteration true c g1 nbits coef e1 s1) (a, s0') (b.quiet, s1') ∧
      b.Answers nbits coef e0.fma e1.ord (y.refresh e1.draw).x (y.refresh e1.draw).pos a ∧ InStep ((y.refresh e1.draw).after nbits b) s0' s1' := by
  obtain ⟨t0, t1, hP, q0, q1⟩ := maybeRefresh_pair hs.sn0 hs.sn1 hd e0.draw
  obtain ⟨c0, c1, hM, hstep⟩ := maybeUpdate_pair goodModulus c g0 g1 hg s0.cor s1.cor hs.cor
  obtain ⟨a, s0', s1', hD, hA, hI⟩ := dispatch_pair c (g1 := g1) hg coef ha hb ho (s0 := ⟨t0, c0⟩) (s1 := ⟨t1, c1⟩) ⟨q0, q1, hstep.ok⟩
  exact ⟨a, s0', s1', hP.bind (hM.bind hD), hA, hI⟩

/-- The inputs of a round meet the requirements: the batch arrives, server 1's maps are iterated in some order, `fmpz_randm` returns a
residue. -/
structure RoundOk (nbits : ℕ) (r : Batch × Env × Env) : Prop where
  arrives : r.1.Arrives nbits r.2.1.stream r.2.2.stream
  ok : r.1.Ok nbits
  ord : ∀ α : Type, IsOrder (r.2.2.ord (α := α))
  draw : Canon r.2.2.draw intModulus

theorem session_pair (c : StoreCfg) {g0 g1 : StoreRng} (hg : GoodRng intModulus g0) {nbits : ℕ} (coef : ℕ → ℤ) (rs : List (Batch × Env × Env))
    (hr : ∀ r ∈ rs, RoundOk nbits r) {y : Shared} {s0 s1 : Srv} (hs : InStep y s0 s1) :
    ∃ as s0' s1' y', Pair (session false c g0 nbits coef (rs.map (·.2.1)) s0) (session true c g1 nbits coef (rs.map (·.2.2)) s1)
        (as, s0') (rs.map (·.1.quiet), s1') ∧
      SessionAnswers nbits coef y rs as y' ∧ InStep y' s0' s1' := by
  induction rs generalizing y s0 s1 with
  | nil => exact ⟨[], s0, s1, y, Pair.ret _ _, ⟨rfl, rfl⟩, hs⟩
  | cons r rs ih =>
    have h := hr r List.mem_cons_self
    obtain ⟨a, t0, t1, hP, hA, hI⟩ := iteration_pair c (g1 := g1) hg coef h.arrives h.ok h.ord h.draw hs
    obtain ⟨as, s0', s1', y', hQ, hB, hJ⟩ := ih (fun r' h' => hr r' (List.mem_cons_of_mem _ h')) hI
    exact ⟨a :: as, s0', s1', y', hP.bind (hQ.bind (Pair.ret _ _)), ⟨a, as, rfl, hA, hB⟩, hJ⟩

/-- C47, the part that holds, and the end-to-end statement for sessions. From servers in step, any list of rounds meeting the
requirements ends in every schedule with nothing unread in either direction, every answer is the one its operation has to give,
whatever came before it, and the servers are in step again. FREQ batches that pass the batch check are excluded (see `C47_false_freq`). -/
theorem C47_session_partial (c : StoreCfg) {g0 g1 : StoreRng} (hg : GoodRng intModulus g0) {nbits : ℕ} (coef : ℕ → ℤ)
    (rs : List (Batch × Env × Env)) (hr : ∀ r ∈ rs, RoundOk nbits r) {y : Shared} {s0 s1 : Srv} (hs : InStep y s0 s1) :
    ∃ as s0' s1' y', Always (session false c g0 nbits coef (rs.map (·.2.1)) s0) (session true c g1 nbits coef (rs.map (·.2.2)) s1)
        (as, s0') (rs.map (·.1.quiet), s1') ∧
      SessionAnswers nbits coef y rs as y' ∧ InStep y' s0' s1' := by
  obtain ⟨as, s0', s1', y', h, q⟩ := session_pair c (g1 := g1) hg coef rs hr hs
  exact ⟨as, s0', s1', y', h.always, q⟩

/-- C47 from the start of the programs: the check point and the generator of the coefficients are exchanged, then any list of rounds
follows. Both servers use the check point drawn by server 1 and the coefficients of server 0's generator. -/
theorem C47_main_partial (c : StoreCfg) {g0 g1 : StoreRng} (hg : GoodRng intModulus g0) {nbits : ℕ} (gen : Bytes → ℕ → ℤ) {draw : ℤ}
    (hd : Canon draw intModulus) (d0 : ℤ) (seed mine : Bytes) (rs : List (Batch × Env × Env)) (hr : ∀ r ∈ rs, RoundOk nbits r) :
    ∃ as s0' s1' y', Always (serverMain false c g0 nbits d0 seed.length seed gen (rs.map (·.2.1)))
        (serverMain true c g1 nbits draw seed.length mine gen (rs.map (·.2.2))) (as, s0') (rs.map (·.1.quiet), s1') ∧
      SessionAnswers nbits (gen seed) ⟨draw, 0, 0⟩ rs as y' ∧ InStep y' s0' s1' := by
  have hs : InStep ⟨draw, 0, 0⟩ ⟨⟨RootTables.start, [], draw, 0, 0⟩, ⟨[], [], 0⟩⟩ ⟨⟨RootTables.start, [], draw, 0, 0⟩, ⟨[], [], 0⟩⟩ :=
    ⟨⟨rfl, hd, rfl, rfl, ⟨[], .start⟩, by simp⟩, ⟨rfl, hd, rfl, rfl, ⟨[], .start⟩, by simp⟩, ⟨.nil, .nil⟩⟩
  obtain ⟨as, s0', s1', y', h, q⟩ := session_pair c (g1 := g1) hg (gen seed) rs hr hs
  refine ⟨as, s0', s1', y', ?_, q⟩
  refine Pair.always ((syncRandomX_pair hd d0).bind (Pair.bind (a := seed) (b := seed) ?_ h))
  unfold syncSnipSeeds
  rw [if_neg (by decide), if_pos rfl]
  have hrd : Reads (Rd.get seed.length .ret) seed seed := Reads.get rfl (Reads.ret _)
  have := (Pair.send01 hrd).bind (Q0 := fun _ => Proc.ret seed) (Q1 := Proc.ret) (Pair.ret seed seed)
  rwa [Proc.bind_ret] at this

/-! ## C50 -/

/-- The count of uses never exceeds the threshold by more than one batch. -/
theorem uses_le {nbits M : ℕ} {coef : ℕ → ℤ} {bs : List (Batch × Env × Env)} (hM : ∀ b ∈ bs, b.1.checks nbits ≤ M) {y y' : Shared} {as : List Answer}
    (h : SessionAnswers nbits coef y bs as y') (hy : y.uses ≤ 1000000 + M) : y'.uses ≤ 1000000 + M := by
  induction bs generalizing y as with
  | nil => rw [h.2]; exact hy
  | cons b bs ih =>
    obtain ⟨b, e0, e⟩ := b
    obtain ⟨a, as', -, -, h⟩ := h
    refine ih (fun b' hb' => hM b' (List.mem_cons_of_mem _ hb')) h ?_
    have hb := hM (b, e0, e) List.mem_cons_self
    simp only [Shared.after, Shared.refresh] at hb ⊢
    split <;> first | omega | (dsimp only; omega)

/-- C50, for histories whose FREQ batches (if any) do not pass the batch check (those leave unread bytes behind, see `C47_false_freq`;
after them the check points can differ, `C50_false_after_freq`). After any session from the start of the programs (hence after any prefix of
one): both servers hold the same check point, which
is a residue; every cached evaluator of either server is the one built from the root tables of its size at this check point; the count of
submissions checked with it is the same at both servers and at most a million plus one batch. -/
theorem C50_check_point_partial (c : StoreCfg) {g0 g1 : StoreRng} (hg : GoodRng intModulus g0) {nbits : ℕ} (gen : Bytes → ℕ → ℤ) {draw : ℤ}
    (hd : Canon draw intModulus) (d0 : ℤ) (seed mine : Bytes) (rs : List (Batch × Env × Env)) (hr : ∀ r ∈ rs, RoundOk nbits r) {M : ℕ}
    (hM : ∀ r ∈ rs, r.1.checks nbits ≤ M) :
    ∃ as s0' s1' x, Always (serverMain false c g0 nbits d0 seed.length seed gen (rs.map (·.2.1)))
        (serverMain true c g1 nbits draw seed.length mine gen (rs.map (·.2.2))) (as, s0') (rs.map (·.1.quiet), s1') ∧
      s0'.snip.x = x ∧ s1'.snip.x = x ∧ Canon x intModulus ∧
      (∀ e, e ∈ s0'.snip.store ∨ e ∈ s1'.snip.store → ∃ t l, RootCalls (e.1 :: l) t ∧ checkerPre intModulus t e.1 x = some e.2) ∧
      s0'.snip.uses = s1'.snip.uses ∧ s0'.snip.uses ≤ 1000000 + M := by
  obtain ⟨as, s0', s1', y', h, hA, hI⟩ := C47_main_partial c (g1 := g1) hg gen hd d0 seed mine rs hr
  refine ⟨as, s0', s1', y'.x, h, hI.sn0.hx, hI.sn1.hx, hI.sn0.canon, ?_, by rw [hI.sn0.huses, hI.sn1.huses], ?_⟩
  · rintro e (he | he)
    · exact hI.sn0.store e he
    · exact hI.sn1.store e he
  · rw [hI.sn0.huses]
    refine uses_le ?_ hA (Nat.zero_le _)
    exact hM

/-- C50: the refresh itself. Servers in step whose check point has been used more than a million times replace it, before the next
submission is looked at, by server 1's draw, restart the count and rebuild every cached evaluator; otherwise nothing changes. -/
theorem C50_refresh {y : Shared} {st0 st1 : SnipState} (h0 : SnipOk y.x y.uses y.pos st0) (h1 : SnipOk y.x y.uses y.pos st1) {draw : ℤ}
    (hd : Canon draw intModulus) (d0 : ℤ) : ∃ st0' st1', Always (maybeRefresh false d0 st0) (maybeRefresh true draw st1) st0' st1' ∧
      (1000000 < y.uses → SnipOk draw 0 y.pos st0' ∧ SnipOk draw 0 y.pos st1') ∧ (y.uses ≤ 1000000 → st0' = st0 ∧ st1' = st1) := by
  by_cases hu : 1000000 < y.uses
  · obtain ⟨a, b, h, q0, q1⟩ := maybeRefresh_pair h0 h1 hd d0
    unfold Shared.refresh at q0 q1
    rw [if_pos hu] at q0 q1
    exact ⟨a, b, h.always, fun _ => ⟨q0, q1⟩, fun h => by omega⟩
  · refine ⟨st0, st1, ?_, fun h => absurd h hu, fun _ => ⟨rfl, rfl⟩⟩
    unfold maybeRefresh randomXThreshold
    rw [h0.huses, h1.huses, if_neg hu, if_neg hu]
    exact (Pair.ret _ _).always

end Verif

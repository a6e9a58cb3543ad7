import Verif.PropsStray
import Verif.PropsAfterFreq
import Verif.PropsCache

/-!
# C77: what a single client can do to the servers
-/

namespace Verif

/-! ## Streams that end a server -/

/-- Byte strings a client can send to a server:
* fewer than the 12 bytes of the initial message,
* a LINREG header followed by fewer than the 8 bytes of the degree,
* a LINREG header with degree 0, or so large a degree that the number of fields does not fit 32 bits,
* a BIT_SUM header for at least one submission, a key, and a byte other than 0 and 1,
* the header of an operation on bits or words, for at least one submission, and less than one submission. -/
inductive Deadly : Bytes → Prop
  | header {s} (h : s.length < 12) : Deadly s
  | degreeCut {n s body} (h : Opens 9#32 n none s body) (hb : body.length < 8) : Deadly s
  | degree {n s d rest} (h : Opens 9#32 n none s (encSize (BitVec.ofNat 64 d) ++ rest)) (hd : d < 2 ^ 32) (hz : d = 0 ∨ 2 ^ 32 ≤ numFields d) : Deadly s
  | bit {n s k} {b : Byte} {rest} (h : Opens 1#32 (n + 1) none s (k ++ b :: rest)) (hk : k.length = 32) (hb : b ≠ 0#8 ∧ b ≠ 1#8) : Deadly s
  | bitCut {n s body} (h : Opens 1#32 (n + 1) none s body) (hb : body.length < 33) : Deadly s
  | wordCut {t n s body} (ht : t ∈ [2#32, 3#32, 4#32]) (h : Opens t (n + 1) none s body) (hb : body.length < 40) : Deadly s

theorem Rd.run_get_short {α : Type} {n : ℕ} {k : Bytes → Rd α} {s : Bytes} (h : s.length < n) : (Rd.get n k).run s = none := by
  simp only [Rd.run, if_pos h]

theorem rdInit_short {s : Bytes} (h : s.length < 12) : rdInit.run s = none := by
  unfold rdInit
  by_cases h4 : s.length < 4
  · exact Rd.run_get_short h4
  by_cases h8 : s.length < 8
  · simp only [Rd.run, if_neg h4, List.length_drop]
    rw [if_pos (by omega)]
  simp only [Rd.run, if_neg h4, List.length_drop]
  rw [if_neg (by omega), if_pos (by omega)]

theorem recordLoop_short {n k : ℕ} {s : Bytes} (h : s.length < n) : recordLoop n (k + 1) none s = none := by
  rw [recordLoop, fillBuf, if_neg (by omega)]
  rfl

/-- A server that gets to read such a stream has no defined behaviour after that. -/
theorem loopBody_deadly (sv : Bool) (c : StoreCfg) (g : StoreRng) (nbits : ℕ) (coef : ℕ → ℤ) (e : Env) (s : Srv) (h : Deadly e.stream) :
    loopBody sv c g nbits coef e s = .fault := by
  have key : ∀ {t n body}, Opens t n none e.stream body → ∃ mx, rdInit.run e.stream = some (⟨t, BitVec.ofNat 32 n, mx⟩, body) ∧ (BitVec.ofNat 32 n).toNat = n :=
    fun o => let ⟨mx, _, q, r⟩ := o.run; ⟨mx, q, r⟩
  cases h with
  | header h =>
    have q := rdInit_short h
    cases sv <;> simp only [loopBody, dispatch0, dispatch1, q, Proc.ofOption, Proc.bind, if_true, Bool.false_eq_true, if_false]
  | degreeCut h hb =>
    obtain ⟨mx, q, r⟩ := key h
    have hd : rdSize.run _ = none := Rd.run_get_short hb
    have lin : (9#32 = 1#32) = False ∧ (9#32 = 2#32) = False ∧ (9#32 = 3#32) = False ∧ (9#32 = 4#32) = False ∧ (9#32 = 5#32) = False ∧
      (9#32 = 6#32) = False ∧ (9#32 = 7#32) = False ∧ (9#32 = 8#32) = False := by decide
    obtain ⟨l1, l2, l3, l4, l5, l6, l7, l8⟩ := lin
    cases sv <;> simp only [loopBody, dispatch0, dispatch1, q, Proc.ofOption, Proc.bind, if_true, Bool.false_eq_true, if_false, l1, l2, l3, l4, l5, l6,
      l7, l8, linOp0, linOp1, hd]
  | @degree n _ d rest h hd hz =>
    obtain ⟨mx, q, r⟩ := key h
    have hn : (BitVec.ofNat 64 (d % 2 ^ 64 % 2 ^ 32)).toNat = d := by
      rw [BitVec.toNat_ofNat]; omega
    have hs := reads_size (BitVec.ofNat 64 d) rest
    rw [BitVec.toNat_ofNat] at hs
    have hc : checkLinReg intModulus d = none := by rw [checkLinReg, if_pos hz]
    have lin : (9#32 = 1#32) = False ∧ (9#32 = 2#32) = False ∧ (9#32 = 3#32) = False ∧ (9#32 = 4#32) = False ∧ (9#32 = 5#32) = False ∧
      (9#32 = 6#32) = False ∧ (9#32 = 7#32) = False ∧ (9#32 = 8#32) = False := by decide
    obtain ⟨l1, l2, l3, l4, l5, l6, l7, l8⟩ := lin
    cases sv <;> simp only [loopBody, dispatch0, dispatch1, q, Proc.ofOption, Proc.bind, if_true, Bool.false_eq_true, if_false, l1, l2, l3, l4, l5, l6,
      l7, l8, linOp0, linOp1, hs, hn, hc]
  | @bit n _ k b rest h hk hb =>
    obtain ⟨mx, q, r⟩ := key h
    have hb' : (recordLoop bitShareSize (n + 1) none (k ++ b :: rest)).bind (fun rs => bitIntake rs []) = none := by
      rw [recordLoop, fillBuf, if_pos (by simp only [bitShareSize, List.length_append, List.length_cons, hk]; omega)]
      cases hrec : recordLoop bitShareSize n (some ((k ++ b :: rest).take bitShareSize)) ((k ++ b :: rest).drop bitShareSize) with
      | none => simp only [hrec, Option.map_none, Option.bind_none]
      | some rs =>
        have hr : recBool ((k ++ b :: rest).take bitShareSize) = none := by
          have : (((k ++ b :: rest).take bitShareSize).getD pkLength 0#8) = b := by
            rw [List.getD_eq_getElem?_getD, List.getElem?_take, if_pos (by decide), List.getElem?_append_right (by rw [hk]; decide), hk]
            rfl
          rw [recBool, this, boolOfByte, if_neg hb.1, if_neg hb.2]
        simp only [hrec, Option.map_some, Option.bind_some, bitIntake, List.lookup_nil, Option.isSome_none, Bool.false_eq_true, if_false, hr]
    cases sv <;> simp only [loopBody, dispatch0, dispatch1, q, Proc.ofOption, Proc.bind, if_true, Bool.false_eq_true, if_false, bitSumOp0, bitSumOp1, r, hb']
  | bitCut h hb =>
    obtain ⟨mx, q, r⟩ := key h
    cases sv <;> simp only [loopBody, dispatch0, dispatch1, q, Proc.ofOption, Proc.bind, if_true, Bool.false_eq_true, if_false, bitSumOp0, bitSumOp1, r,
      recordLoop_short (n := bitShareSize) hb, Option.bind_none]
  | @wordCut t n _ body ht h hb =>
    obtain ⟨mx, q, r⟩ := key h
    have hx : xorIntake (n + 1) body = none := by
      rw [xorIntake, intRecords, recordLoop_short (n := intShareSize) hb]; rfl
    have hi : intIntake nbits (n + 1) body = none := by
      rw [intIntake, intRecords, recordLoop_short (n := intShareSize) hb]
      cases maxVal nbits <;> rfl
    simp only [List.mem_cons, List.not_mem_nil, or_false] at ht
    have l2 : (2#32 = 1#32) = False ∧ (3#32 = 1#32) = False ∧ (3#32 = 2#32) = False ∧ (4#32 = 1#32) = False ∧ (4#32 = 2#32) = False ∧
      (4#32 = 3#32) = False := by decide
    obtain ⟨l1, l2, l3, l4, l5, l6⟩ := l2
    rcases ht with rfl | rfl | rfl <;> cases sv <;>
      simp only [loopBody, dispatch0, dispatch1, q, Proc.ofOption, Proc.bind, if_true, Bool.false_eq_true, if_false, l1, l2, l3, l4, l5, l6, intSumOp0,
        intSumOp1, xorOpOp0, xorOpOp1, r, hx, hi]

theorem post_bind_fault {α β : Type} {φ : β → Prop} (P : Proc α) : (P.bind fun _ => (.fault : Proc β)).Post φ := by
  induction P with
  | ret a => trivial
  | fault => trivial
  | send _ _ ih => exact ih
  | recv _ _ ih => exact fun bs => ih bs
  | otSend _ _ _ ih => exact ih
  | otRecv _ _ _ ih => exact fun bs => ih bs

theorem session_deadly (sv : Bool) (c : StoreCfg) (g : StoreRng) (nbits : ℕ) (coef : ℕ → ℤ) (e : Env) (es : List Env) (s : Srv) (h : Deadly e.stream) :
    session sv c g nbits coef (e :: es) s = (loopHead sv c g e.draw s).bind fun _ => .fault := by
  rw [session, iteration_split, Proc.bind_assoc]
  congr 1; funext s'
  rw [loopBody_deadly sv c g nbits coef e s' h]
  rfl

theorem session_deadly_post (sv : Bool) (c : StoreCfg) (g : StoreRng) (nbits : ℕ) (coef : ℕ → ℤ) (pre : List Env) (e : Env) (es : List Env) (s : Srv)
    (h : Deadly e.stream) : (session sv c g nbits coef (pre ++ e :: es) s).Post fun _ => False := by
  induction pre generalizing s with
  | nil => rw [List.nil_append, session_deadly sv c g nbits coef e es s h]; exact post_bind_fault _
  | cons a pre ih =>
    rw [List.cons_append, session]
    exact Proc.Post.bind (Proc.post_true _) fun r _ => Proc.Post.bind (ih r.2) fun q hq => hq.elim

theorem session_append (sv : Bool) (c : StoreCfg) (g : StoreRng) (nbits : ℕ) (coef : ℕ → ℤ) (es fs : List Env) (s : Srv) :
    session sv c g nbits coef (es ++ fs) s = (session sv c g nbits coef es s).bind fun r =>
      (session sv c g nbits coef fs r.2).bind fun q => .ret (r.1 ++ q.1, q.2) := by
  induction es generalizing s with
  | nil =>
    rw [List.nil_append]
    show _ = ((session sv c g nbits coef fs s).bind fun q => .ret (q.1, q.2))
    exact (Proc.bind_ret _).symm
  | cons e es ih =>
    rw [List.cons_append, session, session, Proc.bind_assoc]
    congr 1; funext r
    rw [ih, Proc.bind_assoc, Proc.bind_assoc]
    congr 1; funext t
    rw [Proc.bind_assoc]
    show _ = ((session sv c g nbits coef fs t.2).bind _)
    congr 1

/-! ## The claim is false -/

/-- C77 is false: one connection to one of the servers, with any of these byte strings, ends that server. After any connections at all,
against any peer, whatever the queues hold and in whatever order things happen, it never gets to the end of its list of connections. -/
theorem C77_false_no_end {α : Type} (c : StoreCfg) (g : StoreRng) (nbits : ℕ) (coef : ℕ → ℤ) (pre : List Env) (e : Env) (es : List Env) (s : Srv)
    (h : Deadly e.stream) (Q : Proc α) (q q' : Bytes) :
    (∀ u : Sys _ α, Steps ⟨session false c g nbits coef (pre ++ e :: es) s, Q, q, q'⟩ u → ∀ a, u.p0 ≠ .ret a) ∧
      ∀ u : Sys α _, Steps ⟨Q, session true c g nbits coef (pre ++ e :: es) s, q, q'⟩ u → ∀ a, u.p1 ≠ .ret a :=
  ⟨fun _ hu _ ha => post_sound0 hu (session_deadly_post false c g nbits coef pre e es s h) ha,
    fun _ hu _ ha => post_sound1 hu (session_deadly_post true c g nbits coef pre e es s h) ha⟩

/-- C77 is false: a server with nothing to do before `accept` has no defined behaviour from the connection on, whatever its peer does. -/
theorem C77_false_at_once (sv : Bool) (c : StoreCfg) (g : StoreRng) (nbits : ℕ) (coef : ℕ → ℤ) (e : Env) (es : List Env) (s : Srv)
    (hs : s.Ready c) (h : Deadly e.stream) : session sv c g nbits coef (e :: es) s = .fault := by
  rw [session_deadly sv c g nbits coef e es s h, loopHead_ready hs]
  rfl

/-- C77 is false: after any rounds that go well, a connection to server 0 with such a stream makes server 0 reach undefined behaviour, whatever
connection server 1 gets meanwhile. -/
theorem C77_false_server0 (c : StoreCfg) {g0 g1 : StoreRng} (hg : GoodRng intModulus g0) {nbits : ℕ} (coef : ℕ → ℤ)
    (rs : List (Batch × Env × Env)) (hr : ∀ r ∈ rs, RoundOk nbits r) {y : Shared} {s0 s1 : Srv} (hs : InStep y s0 s1)
    (e0 e1 : Env) (es0 es1 : List Env) (hd : Canon e1.draw intModulus) (h : Deadly e0.stream) :
    Faults0 (session false c g0 nbits coef (rs.map (·.2.1) ++ e0 :: es0) s0) (session true c g1 nbits coef (rs.map (·.2.2) ++ e1 :: es1) s1) := by
  obtain ⟨as, t0, t1, y', hP, -, hI⟩ := session_pair c (g1 := g1) hg coef rs hr hs
  obtain ⟨u0, u1, hH, -⟩ := loopHead_pair c (g1 := g1) hg hI hd e0.draw
  have h1 := hP _ _ (fun r => (session false c g0 nbits coef (e0 :: es0) r.2).bind fun q => .ret (r.1 ++ q.1, q.2))
    (fun r => (session true c g1 nbits coef (e1 :: es1) r.2).bind fun q => .ret (r.1 ++ q.1, q.2))
  rw [← session_append, ← session_append] at h1
  beta_reduce at h1
  rw [session_deadly false c g0 nbits coef e0 es0 _ h, session, iteration_split, Proc.bind_assoc, Proc.bind_assoc, Proc.bind_assoc] at h1
  exact Faults0.ofSteps (h1.trans (hH _ _ _ _)) rfl

/-- C77 is false at server 1 likewise. -/
theorem C77_false_server1 (c : StoreCfg) {g0 g1 : StoreRng} (hg : GoodRng intModulus g0) {nbits : ℕ} (coef : ℕ → ℤ)
    (rs : List (Batch × Env × Env)) (hr : ∀ r ∈ rs, RoundOk nbits r) {y : Shared} {s0 s1 : Srv} (hs : InStep y s0 s1)
    (e0 e1 : Env) (es0 es1 : List Env) (hd : Canon e1.draw intModulus) (h : Deadly e1.stream) :
    Faults1 (session false c g0 nbits coef (rs.map (·.2.1) ++ e0 :: es0) s0) (session true c g1 nbits coef (rs.map (·.2.2) ++ e1 :: es1) s1) := by
  obtain ⟨as, t0, t1, y', hP, -, hI⟩ := session_pair c (g1 := g1) hg coef rs hr hs
  obtain ⟨u0, u1, hH, -⟩ := loopHead_pair c (g1 := g1) hg hI hd e0.draw
  have h1 := hP _ _ (fun r => (session false c g0 nbits coef (e0 :: es0) r.2).bind fun q => .ret (r.1 ++ q.1, q.2))
    (fun r => (session true c g1 nbits coef (e1 :: es1) r.2).bind fun q => .ret (r.1 ++ q.1, q.2))
  rw [← session_append, ← session_append] at h1
  beta_reduce at h1
  rw [session_deadly true c g1 nbits coef e1 es1 _ h, session, iteration_split, Proc.bind_assoc, Proc.bind_assoc, Proc.bind_assoc] at h1
  exact Faults1.ofSteps (h1.trans (hH _ _ _ _)) rfl

/-! ## What holds -/

/-- Both servers get a connection with the header of the same operation on words and at least as many bytes as the header promises. Nothing
is asked of the bytes, and the numbers of submissions may differ. -/
structure AnyBytes (t : BitVec 32) (e0 e1 : Env) : Prop where
  kind : t ∈ [2#32, 3#32, 4#32]
  first : ∃ n body, Opens t n none e0.stream body ∧ 40 * n ≤ body.length
  second : ∃ n body, Opens t n none e1.stream body ∧ 40 * n ≤ body.length
  ord : ∀ α : Type, IsOrder (e1.ord (α := α))
  draw : Canon e1.draw intModulus

theorem bytes_are_shares (n : ℕ) (body : Bytes) (h : 40 * n ≤ body.length) :
    ∃ subs rest, subs.length = n ∧ Keyed subs ∧ body = encIntShares subs ++ rest := by
  induction n generalizing body with
  | zero => exact ⟨[], body, rfl, fun _ h => absurd h List.not_mem_nil, rfl⟩
  | succ n ih =>
    obtain ⟨subs, rest, hl, hk, hb⟩ := ih (body.drop 40) (by rw [List.length_drop]; omega)
    have h8 : ((body.drop 32).take 8).length = 8 := by rw [List.length_take, List.length_drop]; omega
    refine ⟨(body.take 32, BitVec.ofNat 64 (leVal ((body.drop 32).take 8))) :: subs, rest, by simp [hl], ?_, ?_⟩
    · intro e he
      rcases List.mem_cons.1 he with rfl | he
      · show (body.take 32).length = 32
        rw [List.length_take]; omega
      · exact hk e he
    · have hw : rawWord (BitVec.ofNat 64 (leVal ((body.drop 32).take 8))) = (body.drop 32).take 8 := by
        have hlt := leVal_lt ((body.drop 32).take 8)
        rw [h8] at hlt
        rw [rawWord, BitVec.toNat_ofNat, Nat.mod_eq_of_lt (by simpa using hlt)]
        have := leBytes_leVal ((body.drop 32).take 8)
        rwa [h8] at this
      show body = (encIntShares (_ :: subs)) ++ rest
      rw [encIntShares, List.map_cons, List.flatten_cons, List.append_assoc]
      change body = (body.take 32 ++ rawWord _) ++ (encIntShares subs ++ rest)
      rw [hw, ← hb, List.append_assoc]
      have h1 : body.drop 40 = (body.drop 32).drop 8 := by rw [List.drop_drop]
      rw [h1, List.take_append_drop, List.take_append_drop]

theorem AnyBytes.round {nbits : ℕ} (hn : nbits < 64) {t : BitVec 32} {e0 e1 : Env} (h : AnyBytes t e0 e1) : ∃ b, RoundOk nbits (b, e0, e1) := by
  obtain ⟨n0, b0, o0, l0⟩ := h.first
  obtain ⟨n1, b1, o1, l1⟩ := h.second
  obtain ⟨a, r0, rfl, ha, rfl⟩ := bytes_are_shares n0 b0 l0
  obtain ⟨b, r1, rfl, hb, rfl⟩ := bytes_are_shares n1 b1 l1
  have hk := h.kind
  simp only [List.mem_cons, List.not_mem_nil, or_false] at hk
  rcases hk with rfl | rfl | rfl
  · exact ⟨.intSum a b, ⟨r0, r1, o0, o1⟩, ⟨ha, hb, hn⟩, h.ord, h.draw⟩
  · exact ⟨.xor true a b, ⟨r0, r1, o0, o1⟩, ⟨ha, hb⟩, h.ord, h.draw⟩
  · exact ⟨.xor false a b, ⟨r0, r1, o0, o1⟩, ⟨ha, hb⟩, h.ord, h.draw⟩

theorem SessionAnswers.length {nbits : ℕ} {coef : ℕ → ℤ} {y y' : Shared} {rs : List (Batch × Env × Env)} {as : List Answer}
    (h : SessionAnswers nbits coef y rs as y') : as.length = rs.length := by
  induction rs generalizing y as with
  | nil => rw [h.1]; rfl
  | cons r rs ih =>
    obtain ⟨a, as', rfl, -, h⟩ := h
    rw [List.length_cons, List.length_cons, ih h]

/-- C77, the part that holds: operations on words cannot be disturbed by the contents of what is sent. Rounds of INT_SUM, AND and OR in which
both servers get the promised number of bytes, whatever they are, all end with one answer each, in every schedule, with nothing left
unread between the servers, and leave the servers in step. -/
theorem C77_any_bytes_partial (c : StoreCfg) {g0 g1 : StoreRng} (hg : GoodRng intModulus g0) {nbits : ℕ} (hn : nbits < 64) (coef : ℕ → ℤ)
    (es : List (Env × Env)) (he : ∀ e ∈ es, ∃ t, AnyBytes t e.1 e.2) {y : Shared} {s0 s1 : Srv} (hs : InStep y s0 s1) :
    ∃ as bs s0' s1' y', Always (session false c g0 nbits coef (es.map (·.1)) s0) (session true c g1 nbits coef (es.map (·.2)) s1)
        (as, s0') (bs, s1') ∧ as.length = es.length ∧ bs.length = es.length ∧ InStep y' s0' s1' := by
  have key : ∃ rs : List (Batch × Env × Env), rs.map (·.2) = es ∧ ∀ r ∈ rs, RoundOk nbits r := by
    clear hs
    induction es with
    | nil => exact ⟨[], rfl, fun _ h => absurd h List.not_mem_nil⟩
    | cons e es ih =>
      obtain ⟨rs, h1, h2⟩ := ih fun e h => he e (List.mem_cons_of_mem _ h)
      obtain ⟨t, ht⟩ := he e List.mem_cons_self
      obtain ⟨b, hb⟩ := ht.round hn
      refine ⟨(b, e) :: rs, by rw [List.map_cons, h1], fun r hr => ?_⟩
      rcases List.mem_cons.1 hr with rfl | hr
      · exact hb
      · exact h2 r hr
  obtain ⟨rs, rfl, hr⟩ := key
  obtain ⟨as, s0', s1', y', hA, hB, hI⟩ := C47_session_partial c (g1 := g1) hg coef rs hr hs
  refine ⟨as, rs.map (·.1.quiet), s0', s1', y', ?_, ?_, by simp, hI⟩
  · rw [List.map_map, List.map_map]; exact hA
  · rw [List.length_map]; exact hB.length

/-! ## Examples -/

/-- Nothing at all; LINREG of degree 0; a bit that is 2. -/
example : Deadly [] := .header (by simp)

example : Deadly (encInit ⟨9, 1, 0⟩ ++ encSize (BitVec.ofNat 64 0)) :=
  .degree (n := 1) (d := 0) (rest := []) ⟨by norm_num, 0, by simp, by rw [List.append_nil]; rfl⟩ (by norm_num) (.inl rfl)

example : Deadly (encInit ⟨1, 1, 0⟩ ++ (keyA ++ [2#8])) :=
  .bit (n := 0) (k := keyA) (b := 2#8) (rest := []) ⟨by norm_num, 0, by simp, rfl⟩ (by decide) (by decide)

example : Deadly (encInit ⟨3, 5, 0⟩ ++ keyA) :=
  .wordCut (t := 3#32) (n := 4) (by simp) ⟨by norm_num, 0, by simp, rfl⟩ (by decide)

/-- Bytes that are no submission of any client, in different numbers. -/
example : AnyBytes 2#32 (plainEnv (encInit ⟨2, 2, 0⟩ ++ List.replicate 90 255#8)) (plainEnv (encInit ⟨2, 1, 7⟩ ++ List.replicate 40 1#8)) :=
  ⟨by simp, ⟨2, _, ⟨by norm_num, 0, by simp, rfl⟩, by simp⟩, ⟨1, _, ⟨by norm_num, 7, by simp, rfl⟩, by simp⟩, plain_order _,
    by simp only [Canon, plainEnv]; decide⟩

end Verif

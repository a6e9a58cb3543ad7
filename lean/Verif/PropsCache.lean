import Verif.PropsMain

/-!
# C50 for one server alone: the cached precomputations are right whatever the other server sends
-/

namespace Verif

/-! ## Results of a program whatever it receives -/

/-- Every result the program can come to, whatever it receives, satisfies `φ`. -/
def Proc.Post {α : Type} (φ : α → Prop) : Proc α → Prop
  | .ret a => φ a
  | .fault => True
  | .send _ k => k.Post φ
  | .recv _ k => ∀ bs, (k bs).Post φ
  | .otSend _ _ k => k.Post φ
  | .otRecv _ _ k => ∀ ws, (k ws).Post φ

namespace Proc

variable {α β : Type}

theorem Post.mono {φ ψ : α → Prop} (h : ∀ a, φ a → ψ a) {P : Proc α} (hp : P.Post φ) : P.Post ψ := by
  induction P with
  | ret a => exact h a hp
  | fault => trivial
  | send bs k ih => exact ih hp
  | recv n k ih => exact fun bs => ih bs (hp bs)
  | otSend ch ps k ih => exact ih hp
  | otRecv ch cs k ih => exact fun ws => ih ws (hp ws)

theorem Post.bind {φ : β → Prop} {ψ : α → Prop} {P : Proc α} {f : α → Proc β} (hp : P.Post ψ) (hf : ∀ a, ψ a → (f a).Post φ) :
    (P.bind f).Post φ := by
  induction P with
  | ret a => exact hf a hp
  | fault => trivial
  | send bs k ih => exact ih hp
  | recv n k ih => exact fun bs => ih bs (hp bs)
  | otSend ch ps k ih => exact ih hp
  | otRecv ch cs k ih => exact fun ws => ih ws (hp ws)

theorem post_true (P : Proc α) : P.Post fun _ => True := by
  induction P with
  | ret a => trivial
  | fault => trivial
  | send bs k ih => exact ih
  | recv n k ih => exact fun bs => ih bs
  | otSend ch ps k ih => exact ih
  | otRecv ch cs k ih => exact fun ws => ih ws

theorem Post.after {φ : β → Prop} {P : Proc α} {f : α → Proc β} (hf : ∀ a, (f a).Post φ) : (P.bind f).Post φ :=
  (post_true P).bind fun a _ => hf a

theorem Post.ofOption {φ : α → Prop} {o : Option α} (h : ∀ a, o = some a → φ a) : (Proc.ofOption o).Post φ := by
  cases o with
  | none => trivial
  | some a => exact h a rfl

end Proc

/-- In every run, with every peer and whatever is in transit, a result of server 0 satisfies `φ`. -/
theorem post_sound0 {α β : Type} {φ : α → Prop} {s t : Sys α β} (h : Steps s t) (hp : s.p0.Post φ) {a : α} (ha : t.p0 = .ret a) : φ a := by
  obtain ⟨n, h⟩ := h
  induction h with
  | refl s => rw [ha] at hp; exact hp
  | head hs _ ih =>
    refine ih ?_ ha
    cases hs with
    | send0 => exact hp
    | send1 => exact hp
    | recv0 => exact hp _
    | recv1 => exact hp
    | ot01 => exact hp
    | ot10 => exact hp _

/-- The same for server 1. -/
theorem post_sound1 {α β : Type} {φ : β → Prop} {s t : Sys α β} (h : Steps s t) (hp : s.p1.Post φ) {a : β} (ha : t.p1 = .ret a) : φ a := by
  obtain ⟨n, h⟩ := h
  induction h with
  | refl s => rw [ha] at hp; exact hp
  | head hs _ ih =>
    refine ih ?_ ha
    cases hs with
    | send0 => exact hp
    | send1 => exact hp
    | recv0 => exact hp
    | recv1 => exact hp _
    | ot01 => exact hp _
    | ot10 => exact hp

/-! ## The invariant -/

/-- `initRoots` of the code with its constants. -/
def rootsFor (t : RootTables) (N : ℕ) : Option RootTables := initRoots intModulus intGen twoOrder t N

/-- Every cached evaluator is the one built from scratch for its size and the current check point; the tables are those built from scratch
for their size; the count of uses is at most `M`. -/
structure CacheOk (M : ℕ) (st : SnipState) : Prop where
  tabs : rootsFor RootTables.start st.tables.num = some st.tables
  store : ∀ e ∈ st.store, ∃ t, rootsFor RootTables.start e.1 = some t ∧ checkerPre intModulus t e.1 st.x = some e.2
  uses : st.uses ≤ M

theorem CacheOk.mono {M M' : ℕ} (h : M ≤ M') {st : SnipState} (hc : CacheOk M st) : CacheOk M' st := ⟨hc.tabs, hc.store, hc.uses.trans h⟩

theorem roots_fresh {t t' : RootTables} {N : ℕ} (h : rootsFor RootTables.start t.num = some t) (h' : rootsFor t N = some t') :
    rootsFor RootTables.start N = some t' ∧ t'.num = N := by
  unfold rootsFor initRoots at h'
  split at h'
  · rename_i hn
    cases h'
    rw [hn] at h
    exact ⟨h, hn⟩
  · split at h'
    · cases h'
    · rename_i h0
      refine ⟨?_, ?_⟩
      · unfold rootsFor initRoots
        rw [if_neg (show ¬ RootTables.start.num = N from fun h => h0 h.symm), if_neg h0]
        exact h'
      · dsimp only at h'
        split at h'
        · cases h'
        · cases h'; rfl

theorem prepare_cache {M n N : ℕ} {st : SnipState} (h : CacheOk M st) {r : CheckerPre × SnipState} (hr : prepare st N n = some r) (k : ℕ) :
    CacheOk (M + n) { r.2 with pos := k } := by
  unfold prepare at hr
  obtain ⟨t, ht, hr⟩ := Option.bind_eq_some_iff.1 hr
  obtain ⟨q, hq, rfl⟩ := Option.map_eq_some_iff.1 hr
  obtain ⟨f1, f2⟩ := roots_fresh h.tabs ht
  unfold getPrecomp at hq
  have hu := h.uses
  split at hq
  · cases hq
    exact ⟨by dsimp only; rw [f2]; exact f1, h.store, by dsimp only; omega⟩
  · obtain ⟨pre, hpre, rfl⟩ := Option.map_eq_some_iff.1 hq
    refine ⟨by dsimp only; rw [f2]; exact f1, ?_, by dsimp only; omega⟩
    intro e he
    rcases List.mem_cons.1 he with rfl | he
    · exact ⟨t, f1, hpre⟩
    · exact h.store e he

theorem validate_cache {M : ℕ} {st : SnipState} (h : CacheOk M st) (sv : Bool) (c : Circuit) (coef : ℕ → ℤ) (ni : ℕ) (pks : List Packet) (sh : List ℤ) :
    (validateSnips sv c coef st ni pks sh).Post fun r => CacheOk (M + pks.length) r.2 := by
  unfold validateSnips
  split
  · trivial
  · refine Proc.Post.bind (Proc.Post.ofOption fun r hr => hr) fun r hr => ?_
    refine .after fun ks => .after fun o => .after fun os => .after fun os' => ?_
    exact prepare_cache h hr _

/-! ## The operations -/

theorem recvKeys_length (n : ℕ) : (recvKeys n).Post fun ks => ks.length = n := by
  induction n with
  | zero => rfl
  | succ n ih => exact .after fun k => ih.bind fun ks hk => by show (k :: ks).length = _; simp [hk]

theorem size_lt (bs : Bytes) : ((bswap32 ((BitVec.ofNat 64 (leVal bs)).setWidth 32)).setWidth 64 : U64).toNat < 2 ^ 32 := by
  rw [BitVec.toNat_setWidth]
  exact lt_of_le_of_lt (Nat.mod_le _ _) (BitVec.isLt _)

theorem listen_length : listen.Post fun ks => ks.length < 2 ^ 32 := by
  unfold listen
  refine Proc.Post.bind (ψ := fun n : U64 => n.toNat < 2 ^ 32) ?_ fun n hn => (recvKeys_length _).mono fun ks hk => hk ▸ hn
  exact fun bs => size_lt bs

theorem snip0_cache {M : ℕ} {st : SnipState} (h : CacheOk M st) (c : Circuit) (coef : ℕ → ℤ) (ws : List ℕ) (raw : ℕ → ℕ → ℕ → U64)
    (junk : ℕ → List U64) (m : Map SnipRow) : (snipOp0 c coef ws raw junk st m).Post fun r => CacheOk (M + 2 ^ 32) r.2.2 := by
  unfold snipOp0
  refine listen_length.bind fun ks hk => .after fun sh => (validate_cache h _ _ _ _ _ _).bind fun r hr => .after fun _ => ?_
  refine CacheOk.mono ?_ hr
  simp [rows0]; omega

theorem optAll_length {α : Type} : ∀ (l : List (Option α)) (r : List α), optAll l = some r → r.length = l.length
  | [], r, h => by cases h; rfl
  | none :: l, r, h => by cases h
  | some a :: l, r, h => by
    rw [optAll] at h
    obtain ⟨q, hq, rfl⟩ := Option.map_eq_some_iff.1 h
    simp [optAll_length l q hq]

theorem snip1_cache {M : ℕ} {st : SnipState} (h : CacheOk M st) (c : Circuit) (coef : ℕ → ℤ) (ws : List ℕ) (raw : ℕ → ℕ → ℕ → U64)
    (m ord : Map SnipRow) : (snipOp1 c coef ws raw st m ord).Post fun r => CacheOk (M + ord.length) r.2 := by
  unfold snipOp1
  refine .after fun _ => Proc.Post.bind (Proc.Post.ofOption fun rows hr => optAll_length _ rows hr) fun rows hr => .after fun sh =>
    (validate_cache h _ _ _ _ _ _).bind fun r hr' => .after fun _ => ?_
  refine CacheOk.mono ?_ hr'
  rw [List.length_map, hr, List.length_map, List.length_map]

theorem rep_length {α : Type} (r : Rd α) : ∀ (k : ℕ) (s : Bytes) (l : List α) (rest : Bytes), (r.rep k).run s = some (l, rest) → l.length = k
  | 0, s, l, rest, h => by cases h; rfl
  | k + 1, s, l, rest, h => by
    rw [Rd.rep, Rd.run_bind] at h
    split at h
    · cases h
    · rw [Rd.run_bind] at h
      split at h
      · cases h
      · rename_i hb
        cases h
        simp [rep_length r k _ _ _ hb]

/-- What the loop may do to the state: from at most a million uses to at most 2^32 more. -/
def Kept (s : Srv) : Prop := CacheOk (1000000 + 2 ^ 32) s.snip

theorem var0_cache {st : SnipState} {M : ℕ} (h : CacheOk M st) (fma std : Bool) (nbits n : ℕ) (b : Bytes) (coef : ℕ → ℤ) (raw : ℕ → ℕ → ℕ → U64) :
    (varOp0 fma std nbits n b coef raw st).Post fun r => CacheOk (M + 2 ^ 32) r.2 := by
  unfold varOp0
  refine .after fun c => ?_
  refine .after fun m => ?_
  refine Proc.Post.bind (snip0_cache h _ _ _ _ _ _) fun r hr => ?_
  refine .after fun _ => ?_
  refine .after fun _ => ?_
  exact hr

theorem lin0_cache {st : SnipState} {M : ℕ} (h : CacheOk M st) (nbits n : ℕ) (b : Bytes) (coef : ℕ → ℤ) (raw : ℕ → ℕ → ℕ → U64) (u : ℕ → ℕ → U64) :
    (linOp0 nbits n b coef raw u st).Post fun r => CacheOk (M + 2 ^ 32) r.2 := by
  unfold linOp0
  refine .after fun d => ?_
  refine .after fun c => ?_
  refine .after fun m => ?_
  refine Proc.Post.bind (snip0_cache h _ _ _ _ _ _) fun r hr => ?_
  refine .after fun _ => ?_
  dsimp only
  split
  · exact hr
  · exact .after fun _ => hr

theorem var1_cache {st : SnipState} {M : ℕ} (h : CacheOk M st) (nbits n : ℕ) (b : Bytes) (coef : ℕ → ℤ) (raw : ℕ → ℕ → ℕ → U64)
    (ord : Map SnipRow → Map SnipRow) (ho : IsOrder ord) : (varOp1 nbits n b coef raw st ord).Post fun r => CacheOk (M + n) r.2 := by
  unfold varOp1
  refine .after fun c => Proc.Post.bind (Proc.Post.ofOption (φ := fun m : Map SnipRow => m.length ≤ n) fun m hm => ?_) fun m hm =>
    (snip1_cache h _ _ _ _ _ _).bind fun r hr => .after fun _ => .after fun _ => ?_
  · unfold varIntake at hm
    obtain ⟨mx, -, hm⟩ := Option.bind_eq_some_iff.1 hm
    obtain ⟨l, hl, rfl⟩ := Option.map_eq_some_iff.1 hm
    have := admit_length (varOk mx) l.1 []
    rw [rep_length _ n b l.1 l.2 hl] at this
    simpa using this
  · refine CacheOk.mono ?_ hr
    rw [(ho m).length_eq]; omega

theorem lin1_cache {st : SnipState} {M : ℕ} (h : CacheOk M st) (nbits n : ℕ) (b : Bytes) (coef : ℕ → ℤ) (raw : ℕ → ℕ → ℕ → U64)
    (ord : Map LinRow → Map LinRow) (ho : IsOrder ord) : (linOp1 nbits n b coef raw st ord).Post fun r => CacheOk (M + n) r.2 := by
  unfold linOp1
  refine .after fun d => .after fun c => Proc.Post.bind (Proc.Post.ofOption (φ := fun m : Map LinRow => m.length ≤ n) fun m hm => ?_) fun m hm =>
    (snip1_cache h _ _ _ _ _ _).bind fun r hr => .after fun _ => ?_
  · unfold linIntake at hm
    obtain ⟨mx, -, hm⟩ := Option.bind_eq_some_iff.1 hm
    obtain ⟨l, hl, rfl⟩ := Option.map_eq_some_iff.1 hm
    have := admit_length (linOk mx) l.1 []
    rw [rep_length _ n d.2 l.1 l.2 hl] at this
    simpa using this
  · refine CacheOk.mono ?_ hr
    have : (flatRows (ord m)).length = (ord m).length := by simp [flatRows]
    rw [this, (ho m).length_eq]; omega

theorem refresh_store {x' : ℤ} : ∀ (store : List (ℕ × CheckerPre)) {x : ℤ},
    (∀ e ∈ store, ∃ t, rootsFor RootTables.start e.1 = some t ∧ checkerPre intModulus t e.1 x = some e.2) →
    ∀ {store'}, refreshStore x' store = some store' →
      ∀ e ∈ store', ∃ t, rootsFor RootTables.start e.1 = some t ∧ checkerPre intModulus t e.1 x' = some e.2
  | [], _, _, _, h' => by cases h'; simp
  | e :: store, x, h, store', h' => by
    rw [refreshStore] at h'
    obtain ⟨pre, hpre, h'⟩ := Option.bind_eq_some_iff.1 h'
    obtain ⟨s', hs', rfl⟩ := Option.map_eq_some_iff.1 h'
    intro e' he'
    rcases List.mem_cons.1 he' with rfl | he'
    · obtain ⟨t, h1, h2⟩ := h e List.mem_cons_self
      exact ⟨t, h1, by rw [checkerPre_again h2] at hpre; exact hpre⟩
    · exact refresh_store store (fun e he => h e (List.mem_cons_of_mem _ he)) hs' e' he'

theorem refresh_cache {M : ℕ} {st : SnipState} (h : CacheOk M st) (sv : Bool) (draw : ℤ) :
    (maybeRefresh sv draw st).Post fun st' => CacheOk 1000000 st' := by
  unfold maybeRefresh randomXThreshold
  split
  · refine .after fun x => Proc.Post.bind (Proc.Post.ofOption fun s hs => hs) fun s hs => ?_
    exact ⟨h.tabs, refresh_store st.store h.store hs, Nat.zero_le _⟩
  · rename_i hu
    exact ⟨h.tabs, h.store, by omega⟩

theorem dispatch0_cache (c : StoreCfg) (g : StoreRng) (nbits : ℕ) (coef : ℕ → ℤ) (e : Env) {s : Srv} (h : CacheOk 1000000 s.snip) :
    (dispatch0 c g nbits coef e s).Post fun r => Kept r.2 := by
  have hk : Kept s := h.mono (by norm_num)
  unfold dispatch0
  refine .after fun m => ?_
  dsimp only
  split; · exact .after fun _ => hk
  split; · exact .after fun _ => hk
  split; · exact .after fun _ => hk
  split; · exact .after fun _ => hk
  split; · exact .after fun _ => hk
  split; · exact .after fun _ => hk
  split; · exact (var0_cache h _ _ _ _ _ _ _).bind fun r hr => hr
  split; · exact (var0_cache h _ _ _ _ _ _ _).bind fun r hr => hr
  split; · exact (lin0_cache h _ _ _ _ _ _).bind fun r hr => hr
  split; · exact .after fun _ => hk
  exact hk

theorem dispatch1_cache (c : StoreCfg) (g : StoreRng) (nbits : ℕ) (coef : ℕ → ℤ) (e : Env) (ho : ∀ α : Type, IsOrder (e.ord (α := α))) {s : Srv}
    (h : CacheOk 1000000 s.snip) : (dispatch1 c g nbits coef e s).Post fun r => Kept r.2 := by
  have hk : Kept s := h.mono (by norm_num)
  unfold dispatch1
  refine .after fun m => ?_
  have hn : m.1.num.toNat ≤ 2 ^ 32 := m.1.num.isLt.le
  dsimp only
  split; · exact .after fun _ => hk
  split; · exact .after fun _ => hk
  split; · exact .after fun _ => hk
  split; · exact .after fun _ => hk
  split; · exact .after fun _ => hk
  split; · exact .after fun _ => hk
  split; · exact (var1_cache h _ _ _ _ _ _ (ho _)).bind fun r hr => hr.mono (Nat.add_le_add_left hn _)
  split; · exact (var1_cache h _ _ _ _ _ _ (ho _)).bind fun r hr => hr.mono (Nat.add_le_add_left hn _)
  split; · exact (lin1_cache h _ _ _ _ _ _ (ho _)).bind fun r hr => hr.mono (Nat.add_le_add_left hn _)
  split; · exact .after fun _ => hk
  exact hk

theorem session_cache (sv : Bool) (c : StoreCfg) (g : StoreRng) (nbits : ℕ) (coef : ℕ → ℤ) : ∀ (es : List Env) {s : Srv},
    (∀ e ∈ es, ∀ α : Type, IsOrder (e.ord (α := α))) → Kept s → (session sv c g nbits coef es s).Post fun r => Kept r.2
  | [], _, _, h => h
  | e :: es, s, ho, h => by
    unfold session
    refine Proc.Post.bind (ψ := fun r => Kept r.2) ?_ fun r hr => Proc.Post.bind
      (session_cache sv c g nbits coef es (fun e he => ho e (List.mem_cons_of_mem _ he)) hr) fun q hq => ?_
    swap
    · exact hq
    unfold iteration
    refine (refresh_cache h sv _).bind fun sn hs => .after fun co => ?_
    cases sv
    · exact dispatch0_cache c g nbits coef e hs
    · exact dispatch1_cache c g nbits coef e (ho e List.mem_cons_self) hs

/-- C50 for one server, whatever the other side does: after any list of connections of any content, with any program as the other server
and anything in transit, every cached evaluator of server 0 is the one built from scratch for its size at the server's current check
point, and the count of uses is at most a million plus 2^32, so that the 64-bit counter never wraps around. -/
theorem C50_cache_server0 {β : Type} (c : StoreCfg) (g : StoreRng) (nbits : ℕ) (coef : ℕ → ℤ) (es : List Env)
    (ho : ∀ e ∈ es, ∀ α : Type, IsOrder (e.ord (α := α))) {s : Srv} (hs : CacheOk (1000000 + 2 ^ 32) s.snip) (peer : Proc β) (q01 q10 : Bytes)
    {t : Sys (List Answer × Srv) β} (h : Steps ⟨session false c g nbits coef es s, peer, q01, q10⟩ t) {as : List Answer} {s' : Srv}
    (hr : t.p0 = .ret (as, s')) :
    (∀ e ∈ s'.snip.store, ∃ tab, rootsFor RootTables.start e.1 = some tab ∧ checkerPre intModulus tab e.1 s'.snip.x = some e.2) ∧
      s'.snip.uses ≤ 1000000 + 2 ^ 32 := by
  have := post_sound0 h (session_cache false c g nbits coef es ho hs) hr
  exact ⟨this.store, this.uses⟩

/-- The same for server 1. -/
theorem C50_cache_server1 {α : Type} (c : StoreCfg) (g : StoreRng) (nbits : ℕ) (coef : ℕ → ℤ) (es : List Env)
    (ho : ∀ e ∈ es, ∀ α : Type, IsOrder (e.ord (α := α))) {s : Srv} (hs : CacheOk (1000000 + 2 ^ 32) s.snip) (peer : Proc α) (q01 q10 : Bytes)
    {t : Sys α (List Answer × Srv)} (h : Steps ⟨peer, session true c g nbits coef es s, q01, q10⟩ t) {as : List Answer} {s' : Srv}
    (hr : t.p1 = .ret (as, s')) :
    (∀ e ∈ s'.snip.store, ∃ tab, rootsFor RootTables.start e.1 = some tab ∧ checkerPre intModulus tab e.1 s'.snip.x = some e.2) ∧
      s'.snip.uses ≤ 1000000 + 2 ^ 32 := by
  have := post_sound1 h (session_cache true c g nbits coef es ho hs) hr
  exact ⟨this.store, this.uses⟩

/-- The state at the start of the program meets the hypothesis. -/
example (x : ℤ) : CacheOk (1000000 + 2 ^ 32) ⟨RootTables.start, [], x, 0, 0⟩ := ⟨rfl, by simp, Nat.zero_le _⟩

end Verif

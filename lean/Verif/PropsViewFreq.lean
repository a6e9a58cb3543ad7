import Verif.LemmasViewFreqRun

/-! # C65: what each server learns in FREQ -/

namespace Verif

/-! ## What a server gets -/

section
variable {α β : Type}

/-- Everything server 0 gets under every schedule: what it reads and what is left for it unread. -/
def Gets0 (P0 : Proc α) (P1 : Proc β) (v : List Seen) : Prop :=
  ∃ a b u w q01 q10, Ends P0.watch P1.watch (a, u) (b, w) q01 q10 ∧ v = u ++ seenBytes q10

/-- The same for server 1. -/
def Gets1 (P0 : Proc α) (P1 : Proc β) (v : List Seen) : Prop :=
  ∃ a b u w q01 q10, Ends P0.watch P1.watch (a, u) (b, w) q01 q10 ∧ v = w ++ seenBytes q01

theorem Ends.unique {P0 : Proc α} {P1 : Proc β} {a a' : α} {b b' : β} {q01 q10 q01' q10' : Bytes} (h : Ends P0 P1 a b q01 q10)
    (h' : Ends P0 P1 a' b' q01' q10') : a = a' ∧ b = b' ∧ q01 = q01' ∧ q10 = q10' := by
  have e := (h'.1 _ (h.1 _ (.refl _)).1).2 (stuck_done _ _ _ _)
  unfold Done at e
  injection e with e1 e2 e3 e4
  exact ⟨Proc.ret.inj e1, Proc.ret.inj e2, e3, e4⟩

theorem Gets0.unique {P0 : Proc α} {P1 : Proc β} {v w : List Seen} (h : Gets0 P0 P1 v) (h' : Gets0 P0 P1 w) : v = w := by
  obtain ⟨a, b, u, x, q, q', h, rfl⟩ := h
  obtain ⟨a', b', u', x', r, r', h', rfl⟩ := h'
  obtain ⟨e1, -, -, rfl⟩ := h.unique h'
  rw [(Prod.mk.inj e1).2]

theorem Gets1.unique {P0 : Proc α} {P1 : Proc β} {v w : List Seen} (h : Gets1 P0 P1 v) (h' : Gets1 P0 P1 w) : v = w := by
  obtain ⟨a, b, u, x, q, q', h, rfl⟩ := h
  obtain ⟨a', b', u', x', r, r', h', rfl⟩ := h'
  obtain ⟨-, e1, rfl, -⟩ := h.unique h'
  rw [(Prod.mk.inj e1).2]

end

/-! ## A run -/

theorem freqOp_view (c : StoreCfg) {g0 : StoreRng} (g1 : StoreRng) (hg : GoodRng intModulus g0) {nbits total0 total1 : ℕ} (hb : nbits ≤ 30)
    (ht : total0 < 2 ^ 32) {stream0 stream1 : Bytes} {subs0 subs1 : List (Bytes × List Bool)} (hs0 : FreqStream (2 ^ nbits) total0 stream0 subs0)
    (hs1 : FreqStream (2 ^ nbits) total1 stream1 subs1) (hcap : (keysOf subs1).card ≤ total0)
    (hsz : (keysOf subs1).card * 2 ^ nbits < 2 ^ 32) {st0 st1 : Store} (hst : StoresOk intModulus st0 st1)
    {ord : Map (List Bool) → Map (List Bool)} (ho : IsOrder ord) {ks : List Bytes} (hks : runKeys ord subs1 = ks) {T0 T1 : List DaBit}
    (hT0 : T0 = stock0 intModulus c g0 st0 (ks.length * 2 ^ nbits)) (hT1 : T1 = stock1 intModulus c g0 g1 st0 st1 (ks.length * 2 ^ nbits)) :
    FreqRowsOk (2 ^ nbits) ks.length (ks.map (shareAt (2 ^ nbits) subs0)) (ks.map (shareAt (2 ^ nbits) subs1))
      (converted0 intModulus T0 T1 (ks.map (shareAt (2 ^ nbits) subs0)).flatten (ks.map (shareAt (2 ^ nbits) subs1)).flatten)
      (converted1 intModulus T0 T1 (ks.map (shareAt (2 ^ nbits) subs0)).flatten (ks.map (shareAt (2 ^ nbits) subs1)).flatten) ∧
    Gets0 (freqOp0 c g0 nbits total0 stream0 st0) (freqOp1 c g1 nbits total1 stream1 ord st1)
      (freqSeen0 (2 ^ nbits) total0 (admit anyRow subs0 []) ks (freqVec (2 ^ nbits) subs0 subs1) (shareAt (2 ^ nbits) subs1)
        (veil T1 (ks.map (shareAt (2 ^ nbits) subs1)).flatten) (pieces (2 ^ nbits) ks.length
          (converted1 intModulus T0 T1 (ks.map (shareAt (2 ^ nbits) subs0)).flatten (ks.map (shareAt (2 ^ nbits) subs1)).flatten))) ∧
    Gets1 (freqOp0 c g0 nbits total0 stream0 st0) (freqOp1 c g1 nbits total1 stream1 ord st1)
      ((stockSeen intModulus c g0 g1 st0 st1 (ks.length * 2 ^ nbits) ++ seenBytes (encBools (veil T0 (ks.map (shareAt (2 ^ nbits) subs0)).flatten))) ++
        freqSeen1 total0 (admit anyRow subs0 []) ks (freqVec (2 ^ nbits) subs0 subs1)) := by
  obtain ⟨-, -, w0⟩ := hs0.spec
  obtain ⟨-, k1, w1⟩ := hs1.spec
  have hp := ho (admit anyRow subs1 [])
  obtain ⟨-, -, hlen⟩ := runKeys_spec ho subs1
  rw [hks] at hlen
  rw [← hlen] at hcap hsz
  have hks : (ord (admit anyRow subs1 [])).keys = ks := hks
  subst hks
  obtain ⟨hR, r0, r1, u, q, hP, hu⟩ := freq_view c g1 hg ht (m := admit anyRow subs0 []) (order_keyed hp k1)
    (a := shareAt (2 ^ nbits) subs0) (b := shareAt (2 ^ nbits) subs1) (v := freqVec (2 ^ nbits) subs0 subs1) (fun _ => rfl)
    (firstOf_length w0) (firstOf_length w1)
    (List.map_congr_left fun k _ => by rw [freqRow0, C34_first_admissible]; rfl) (by
      rw [Map.keys, List.map_map]
      refine List.map_congr_left fun e he => ?_
      simp only [Function.comp_apply, shareAt, order_lookup hp he, Option.getD_some]) hcap hsz hst hT0 hT1
  have e0 : freqOp0 c g0 nbits total0 stream0 st0 = freq0 c g0 (2 ^ nbits) total0 (admit anyRow subs0 []) st0 := by
    obtain ⟨r, e⟩ := hs0
    unfold freqOp0 freqWidth freqIntake
    rw [if_pos hb]
    show Proc.bind (Proc.ofOption (Option.map _ (((rdFreqShare (2 ^ nbits)).rep total0).run stream0))) _ = _
    rw [e]; rfl
  have e1 : freqOp1 c g1 nbits total1 stream1 ord st1 = freq1 c g1 (2 ^ nbits) (ord (admit anyRow subs1 [])) st1 := by
    obtain ⟨r, e⟩ := hs1
    unfold freqOp1 freqWidth freqIntake
    rw [if_pos hb]
    show Proc.bind (Proc.ofOption (Option.map _ (((rdFreqShare (2 ^ nbits)).rep total1).run stream1))) _ = _
    rw [e]; rfl
  rw [e0, e1]
  exact ⟨hR, ⟨_, _, _, _, _, _, hP.ends, by simp [seenBytes]⟩, ⟨_, _, _, _, _, _, hP.ends, hu.symm⟩⟩

/-! ## Server 0 and the daBits it makes itself -/

/-- C65 is false of the compiled-in setting (`LAZY_PRECOMPUTE`, server.cpp:45): server 0 makes both halves of the daBits, and server 1 sends its
bits masked with the half that server 0 made. Whatever server 1 draws, from what server 0 gets follows every share that server 1 holds, and so
every client's vector. The assumption on the stores is that server 0 knows server 1's queue; it holds at the start and later, since server 0 makes
all of it. -/
theorem C65_freq_lazy_leak {c : StoreCfg} (hl : c.lazy = true) {g0 : StoreRng} (g1 g1' : StoreRng) (hg : GoodRng intModulus g0)
    {nbits total0 total1 total1' : ℕ} (hb : nbits ≤ 30) (ht : total0 < 2 ^ 32) {stream0 stream1 stream1' : Bytes}
    {subs0 subs1 subs1' : List (Bytes × List Bool)} (hs0 : FreqStream (2 ^ nbits) total0 stream0 subs0)
    (hs1 : FreqStream (2 ^ nbits) total1 stream1 subs1) (hs1' : FreqStream (2 ^ nbits) total1' stream1' subs1')
    (hcap : (keysOf subs1).card ≤ total0) (hcap' : (keysOf subs1').card ≤ total0)
    (hsz : (keysOf subs1).card * 2 ^ nbits < 2 ^ 32) (hsz' : (keysOf subs1').card * 2 ^ nbits < 2 ^ 32) {st0 st1 st1' : Store}
    (hst : StoresOk intModulus st0 st1) (hst' : StoresOk intModulus st0 st1') (hsame : st1.dabits = st1'.dabits)
    {ord ord' : Map (List Bool) → Map (List Bool)} (ho : IsOrder ord) (ho' : IsOrder ord') {v : List Seen}
    (hv : Gets0 (freqOp0 c g0 nbits total0 stream0 st0) (freqOp1 c g1 nbits total1 stream1 ord st1) v)
    (hv' : Gets0 (freqOp0 c g0 nbits total0 stream0 st0) (freqOp1 c g1' nbits total1' stream1' ord' st1') v) :
    (∀ k, firstOf anyRow subs1 k = firstOf anyRow subs1' k) ∧ ∀ k, freqVec (2 ^ nbits) subs0 subs1 k = freqVec (2 ^ nbits) subs0 subs1' k := by
  obtain ⟨-, h0, -⟩ := freqOp_view c g1 hg hb ht hs0 hs1 hcap hsz hst ho rfl rfl rfl
  obtain ⟨-, h0', -⟩ := freqOp_view c g1' hg hb ht hs0 hs1' hcap' hsz' hst' ho' rfl rfl rfl
  have e := (h0.unique hv).trans (h0'.unique hv').symm
  obtain ⟨-, k1, w1⟩ := hs1.spec
  obtain ⟨-, k1', w1'⟩ := hs1'.spec
  obtain ⟨-, f1, l1⟩ := runKeys_spec ho subs1
  obtain ⟨-, f1', l1'⟩ := runKeys_spec ho' subs1'
  have len : ∀ (g1 : StoreRng) (st1 : Store), StoresOk intModulus st0 st1 → ∀ N, N ≤ (stock1 intModulus c g0 g1 st0 st1 N).length := by
    intro g1 st1 h N
    rw [← (stock_ok goodModulus c g1 hg h N).length_eq]
    exact stock0_length ..
  have lx : ∀ (ks : List Bytes) (subs : List (Bytes × List Bool)), (∀ e ∈ subs, e.2.length = 2 ^ nbits) →
      (ks.map (shareAt (2 ^ nbits) subs)).flatten.length = ks.length * 2 ^ nbits := by
    intro ks subs h
    rw [length_flatten_const _ (2 ^ nbits) (by
      intro l hl
      obtain ⟨k, -, rfl⟩ := List.mem_map.1 hl
      exact firstOf_length h k), List.length_map]
  obtain ⟨eks, ev⟩ := freqSeen0_inj (ks := runKeys ord subs1) (ks' := runKeys ord' subs1') (by omega) (by omega) (order_keyed (ho _) k1) (order_keyed (ho' _) k1')
    (by rw [veil_length (by rw [lx _ _ w1]; exact len _ _ hst _), lx _ _ w1])
    (by rw [veil_length (by rw [lx _ _ w1']; exact len _ _ hst' _), lx _ _ w1']) e
  rw [← eks] at ev f1'
  have eT : ∀ N, stock1 intModulus c g0 g1' st0 st1' N = stock1 intModulus c g0 g1 st0 st1 N := by
    intro N
    unfold stock1 daMade1
    rw [hl, hsame]; rfl
  rw [eT] at ev
  have ex := veil_inj (by rw [lx _ _ w1]; exact len _ _ hst _) (by rw [lx _ _ w1, lx _ _ w1']) ev
  have er := (flatten_inj (k := 2 ^ nbits) (L := (runKeys ord subs1).map (shareAt (2 ^ nbits) subs1))
    (L' := (runKeys ord subs1).map (shareAt (2 ^ nbits) subs1')) (t := []) (t' := []) (by simp) (by
      intro l hl
      obtain ⟨k, -, rfl⟩ := List.mem_map.1 hl
      exact firstOf_length w1 k) (by
      intro l hl
      obtain ⟨k, -, rfl⟩ := List.mem_map.1 hl
      exact firstOf_length w1' k) (by rw [ex])).1
  have main : ∀ k, firstOf anyRow subs1 k = firstOf anyRow subs1' k := by
    intro k
    by_cases hk : k ∈ runKeys ord subs1
    · have h1 := List.map_inj_left.1 er k hk
      have i1 : k ∈ keysOf subs1 := by rw [← f1]; simpa using hk
      have i2 : k ∈ keysOf subs1' := by rw [← f1']; simpa using hk
      rw [← firstOf_any_isSome] at i1 i2
      obtain ⟨x, hx⟩ := Option.isSome_iff_exists.1 i1
      obtain ⟨y, hy⟩ := Option.isSome_iff_exists.1 i2
      simp only [shareAt, hx, hy, Option.getD_some] at h1
      rw [hx, hy, h1]
    · have i1 : ¬ k ∈ keysOf subs1 := by rw [← f1]; simpa using hk
      have i2 : ¬ k ∈ keysOf subs1' := by rw [← f1']; simpa using hk
      rw [← firstOf_any_isSome, Bool.not_eq_true, Option.isSome_eq_false_iff, Option.isNone_iff_eq_none] at i1 i2
      rw [i1, i2]
  exact ⟨main, fun k => by unfold freqVec; rw [main k]⟩

/-! ## Honest clients -/

variable {n : ℕ} {key : Fin n → Bytes}

/-- The value an honest client means. -/
def freqValue (nbits : ℕ) (raw : U64) : ℕ := raw.toNat % 2 ^ nbits

theorem honest_vec {nbits : ℕ} (hb : nbits ≤ 30) {A0 A1 : List (Fin n ⊕ Bytes × List Bool)} (hA0 : Arrives key A0) (hA1 : Arrives key A1)
    (raw : Fin n → U64) {arr : Fin n → List Bool} (harr : ∀ i, (arr i).length = 2 ^ nbits) (i : Fin n) :
    freqVec (2 ^ nbits) (fill key A0 fun i => (clientFreq nbits (raw i) (arr i)).1) (fill key A1 fun i => (clientFreq nbits (raw i) (arr i)).2) (key i) =
      (List.range (2 ^ nbits)).map fun j => decide (j = freqValue nbits (raw i)) := by
  have h := (clientFreq_vec hb (raw i) (harr i)).2.2
  rw [← shareAt_honest (w := 2 ^ nbits) hA0 (fun i => (clientFreq nbits (raw i) (arr i)).1) i,
    ← shareAt_honest (w := 2 ^ nbits) hA1 (fun i => (clientFreq nbits (raw i) (arr i)).2) i] at h
  exact h

theorem honest_weight {nbits : ℕ} (hb : nbits ≤ 30) {A0 A1 : List (Fin n ⊕ Bytes × List Bool)} (hA0 : Arrives key A0) (hA1 : Arrives key A1)
    (raw : Fin n → U64) {arr : Fin n → List Bool} (harr : ∀ i, (arr i).length = 2 ^ nbits) (i : Fin n) :
    weight (freqVec (2 ^ nbits) (fill key A0 fun i => (clientFreq nbits (raw i) (arr i)).1)
      (fill key A1 fun i => (clientFreq nbits (raw i) (arr i)).2) (key i)) = 1 := by
  rw [honest_vec hb hA0 hA1 raw harr i, weight_unit (show freqValue nbits (raw i) < 2 ^ nbits from Nat.mod_lt _ (by positivity))]

theorem other_vec {w : ℕ} (A0 A1 : List (Fin n ⊕ Bytes × List Bool)) (f0 f0' f1 f1' : Fin n → List Bool) {k : Bytes} (hk : ∀ i, key i ≠ k) :
    freqVec w (fill key A0 f0) (fill key A1 f1) k = freqVec w (fill key A0 f0') (fill key A1 f1') k := by
  unfold freqVec; rw [firstOf_other A0 f0 f0' hk, firstOf_other A1 f1 f1' hk]

theorem runKeys_fill {ord : Map (List Bool) → Map (List Bool)} (hby : ByKeys ord) (A : List (Fin n ⊕ Bytes × List Bool)) (f f' : Fin n → List Bool) :
    runKeys ord (fill key A f) = runKeys ord (fill key A f') := 
  hby _ _ (admit_keys_fill (ok := anyRow) (f := f) (f' := f') A (fun _ => rfl) [] [] rfl)

/-- C65 in the compiled-in setting, with honest clients: if server 0 gets the same in two runs in which the clients use the same random arrays,
every client has the same value in both. So server 0 can compute every client's value. -/
theorem C65_freq_lazy_values {c : StoreCfg} (hl : c.lazy = true) {g0 : StoreRng} (g1 g1' : StoreRng) (hg : GoodRng intModulus g0)
    {nbits : ℕ} (hb : nbits ≤ 30) {A0 A1 : List (Fin n ⊕ Bytes × List Bool)} (hA0 : Arrives key A0) (hA1 : Arrives key A1) (ht : A0.length < 2 ^ 32)
    (hcap : (keysOf (fill key A1 fun _ => [])).card ≤ A0.length) (hsz : (keysOf (fill key A1 fun _ => [])).card * 2 ^ nbits < 2 ^ 32)
    (raw raw' : Fin n → U64) {arr : Fin n → List Bool} (harr : ∀ i, (arr i).length = 2 ^ nbits) {s0 s1 s1' : Bytes}
    (h0 : FreqStream (2 ^ nbits) A0.length s0 (fill key A0 fun i => (clientFreq nbits (raw i) (arr i)).1))
    (h1 : FreqStream (2 ^ nbits) A1.length s1 (fill key A1 fun i => (clientFreq nbits (raw i) (arr i)).2))
    (h1' : FreqStream (2 ^ nbits) A1.length s1' (fill key A1 fun i => (clientFreq nbits (raw' i) (arr i)).2))
    {st0 st1 : Store} (hst : StoresOk intModulus st0 st1) {ord : Map (List Bool) → Map (List Bool)} (ho : IsOrder ord) {v : List Seen}
    (hv : Gets0 (freqOp0 c g0 nbits A0.length s0 st0) (freqOp1 c g1 nbits A1.length s1 ord st1) v)
    (hv' : Gets0 (freqOp0 c g0 nbits A0.length s0 st0) (freqOp1 c g1' nbits A1.length s1' ord st1) v) :
    ∀ i, freqValue nbits (raw i) = freqValue nbits (raw' i) := by
  intro i
  rw [keysOf_fill A1 _ (fun i => (clientFreq nbits (raw i) (arr i)).2)] at hcap hsz
  have hcap' := hcap
  have hsz' := hsz
  rw [keysOf_fill A1 _ (fun i => (clientFreq nbits (raw' i) (arr i)).2)] at hcap' hsz'
  have h := (C65_freq_lazy_leak hl g1 g1' hg hb ht h0 h1 h1' hcap hcap' hsz hsz' hst hst rfl ho ho hv hv').2 (key i)
  have h2 := honest_vec hb hA0 hA1 raw' harr i
  rw [honest_vec hb hA0 hA1 raw harr i] at h
  have h2 := h.trans h2
  have hlt : freqValue nbits (raw i) < 2 ^ nbits := Nat.mod_lt _ (by positivity)
  have := congrArg (fun l => l[freqValue nbits (raw i)]?) h2
  simpa [hlt] using this

/-- What holds of C65 for server 0. Full statement: server 0 learns nothing about the honest clients' values but the histogram. Missing: the
compiled-in setting, for which it is false (`C65_freq_lazy_leak`). With jointly made daBits (`lazy = false`): honest clients, any others, any
arrival order. If the honest clients' values are replaced by others with the same histogram, there are bijections of server 1's draws and of the
stores of server 1 that match server 0's, under which server 0 gets the same. -/
theorem C65_freq_server0_partial {c : StoreCfg} (hl : c.lazy = false) {g0 : StoreRng} (hg : GoodRng intModulus g0)
    {nbits : ℕ} (hb : nbits ≤ 30) {A0 A1 : List (Fin n ⊕ Bytes × List Bool)} (hA0 : Arrives key A0) (hA1 : Arrives key A1) (ht : A0.length < 2 ^ 32)
    (hcap : (keysOf (fill key A1 fun _ => [])).card ≤ A0.length) (hsz : (keysOf (fill key A1 fun _ => [])).card * 2 ^ nbits < 2 ^ 32)
    (raw raw' : Fin n → U64)
    (hsame : ∀ j, (Finset.univ.filter fun i => freqValue nbits (raw i) = j).card = (Finset.univ.filter fun i => freqValue nbits (raw' i) = j).card)
    {arr : Fin n → List Bool} (harr : ∀ i, (arr i).length = 2 ^ nbits) (st0 : Store) {ord : Map (List Bool) → Map (List Bool)} (ho : IsOrder ord)
    (hby : ByKeys ord) :
    ∃ (e : StoreRng ≃ StoreRng) (τ : {st1 // StoresOk intModulus st0 st1} ≃ {st1 // StoresOk intModulus st0 st1}), ∀ g1 st1 s0 s1 s1',
      FreqStream (2 ^ nbits) A0.length s0 (fill key A0 fun i => (clientFreq nbits (raw i) (arr i)).1) →
      FreqStream (2 ^ nbits) A1.length s1 (fill key A1 fun i => (clientFreq nbits (raw i) (arr i)).2) →
      FreqStream (2 ^ nbits) A1.length s1' (fill key A1 fun i => (clientFreq nbits (raw' i) (arr i)).2) → ∃ v,
        Gets0 (freqOp0 c g0 nbits A0.length s0 st0) (freqOp1 c g1 nbits A1.length s1 ord st1.1) v ∧
        Gets0 (freqOp0 c g0 nbits A0.length s0 st0) (freqOp1 c (e g1) nbits A1.length s1' ord (τ st1).1) v := by
  set subs0 := fill key A0 fun i => (clientFreq nbits (raw i) (arr i)).1 with hsubs0
  set subs1 := fill key A1 fun i => (clientFreq nbits (raw i) (arr i)).2 with hsubs1
  set subs1' := fill key A1 fun i => (clientFreq nbits (raw' i) (arr i)).2 with hsubs1'
  have hks : runKeys ord subs1' = runKeys ord subs1 := runKeys_fill hby A1 _ _
  rw [keysOf_fill A1 _ (fun i => (clientFreq nbits (raw i) (arr i)).2), ← hsubs1] at hcap hsz
  have hcap' := hcap
  have hsz' := hsz
  rw [hsubs1, keysOf_fill A1 _ (fun i => (clientFreq nbits (raw' i) (arr i)).2), ← hsubs1'] at hcap' hsz'
  obtain ⟨hn, hf, hlen⟩ := runKeys_spec ho subs1
  generalize hK : runKeys ord subs1 = ks at *
  set x1 := (ks.map (shareAt (2 ^ nbits) subs1)).flatten with hx1
  set x1' := (ks.map (shareAt (2 ^ nbits) subs1')).flatten with hx1'
  set δ : ℕ → Bool := fun i => x1.getD i false ^^ x1'.getD i false with hδ
  refine ⟨turnBits δ st0.dabits.length, turn1 st0 δ, fun g1 st1 s0 s1 s1' h0 h1 h1' => ?_⟩
  obtain ⟨-, -, w0⟩ := h0.spec
  obtain ⟨-, -, w1⟩ := h1.spec
  obtain ⟨-, -, w1'⟩ := h1'.spec
  obtain ⟨hR, hv, -⟩ := freqOp_view c g1 hg hb ht h0 h1 hcap hsz st1.2 ho hK rfl rfl
  obtain ⟨hR', hv', -⟩ := freqOp_view c (turnBits δ st0.dabits.length g1) hg hb ht h0 h1' hcap' hsz' (turn1 st0 δ st1).2 ho hks rfl rfl
  have lx : ∀ subs : List (Bytes × List Bool), (∀ e ∈ subs, e.2.length = 2 ^ nbits) →
      (ks.map (shareAt (2 ^ nbits) subs)).flatten.length = ks.length * 2 ^ nbits := by
    intro subs h
    rw [length_flatten_const _ (2 ^ nbits) (by
      intro l hl
      obtain ⟨k, -, rfl⟩ := List.mem_map.1 hl
      exact firstOf_length h k), List.length_map]
  have hveil := veil_turn (x := x1) (x' := x1') (stock1_turn hl g0 g1 st1 δ (ks.length * 2 ^ nbits)) (by rw [hx1', hx1, lx _ w1, lx _ w1'])
    (fun i _ => by simp only [hδ]; cases x1.getD i false <;> cases x1'.getD i false <;> rfl)
  refine ⟨_, hv, ?_⟩
  have key0 : ∀ k, weight (freqVec (2 ^ nbits) subs0 subs1 k) = weight (freqVec (2 ^ nbits) subs0 subs1' k) := by
    intro k
    by_cases hk : ∃ i, key i = k
    · obtain ⟨i, rfl⟩ := hk
      rw [honest_weight hb hA0 hA1 raw harr i]
      exact (honest_weight hb hA0 hA1 raw' harr i).symm
    · rw [other_vec A0 A1 _ _ _ (fun i => (clientFreq nbits (raw' i) (arr i)).2) fun i hi => hk ⟨i, hi⟩]
  have e := freqSeen0_congr (w := 2 ^ nbits) (total := A0.length) (m := admit anyRow subs0 []) hn
    (by have : (2 : ℕ) ^ 32 < intModulus := by decide
        omega) (a := shareAt (2 ^ nbits) subs0)
    (b := shareAt (2 ^ nbits) subs1) (b' := shareAt (2 ^ nbits) subs1') (v := freqVec (2 ^ nbits) subs0 subs1) (v' := freqVec (2 ^ nbits) subs0 subs1')
    (fun _ => rfl) (fun _ => rfl) (firstOf_length w0) (firstOf_length w1) (firstOf_length w1') hR
    (by
      have := hR'
      unfold converted0 at this ⊢
      rw [← hx1, ← hveil]
      exact this) (fun k _ => key0 k) ?_ (veil (stock1 intModulus c g0 g1 st0 st1.1 (ks.length * 2 ^ nbits)) x1)
  · rw [e, ← hveil]
    exact hv'
  · refine histogram_honest hA0.inj ?_ ?_ ?_
    · intro i
      refine Finset.mem_filter.2 ⟨?_, ?_⟩
      · rw [hf]; exact key_mem hA1 _ i
      · unfold counts
        rw [C34_first_admissible, (firstOf_any_isSome _ _).2 (key_mem hA0 _ i), honest_weight hb hA0 hA1 raw harr i]
        simp
    · intro k hk
      exact other_vec A0 A1 _ _ _ _ hk
    · intro j hj
      have form : ∀ raw : Fin n → U64, (Finset.univ.filter fun i => ((List.range (2 ^ nbits)).map fun j => decide (j = freqValue nbits (raw i))).getD j false = true) =
          Finset.univ.filter fun i => freqValue nbits (raw i) = j := by
        intro raw
        refine Finset.filter_congr fun i _ => ?_
        simp [List.getD_eq_getElem?_getD, hj, eq_comm]
      simp only [hsubs0, hsubs1, hsubs1']
      simp only [honest_vec hb hA0 hA1 raw harr]
      have hh : ∀ i, freqVec (2 ^ nbits) (fill key A0 fun i => (clientFreq nbits (raw i) (arr i)).1)
          (fill key A1 fun i => (clientFreq nbits (raw' i) (arr i)).2) (key i) = _ := fun i => honest_vec hb hA0 hA1 raw' harr i
      simp only [hh, form]
      exact hsame j

/-! ## Server 1 -/

/-- The random array of a client. -/
abbrev Arr (nbits : ℕ) : Type := {l : List Bool // l.length = 2 ^ nbits}

theorem clientFreq_twice {nbits : ℕ} (hb : nbits ≤ 30) (raw : U64) (arr : Arr nbits) :
    (clientFreq nbits raw (clientFreq nbits raw arr.1).2).2 = arr.1 := by
  obtain ⟨arr, hl⟩ := arr
  have a := (clientFreq_vec hb raw hl)
  have b := (clientFreq_vec hb raw a.2.1)
  have e : List.zipWith (fun a b => a ^^ b) arr (clientFreq nbits raw arr).2 =
      List.zipWith (fun a b => a ^^ b) (clientFreq nbits raw arr).2 (clientFreq nbits raw (clientFreq nbits raw arr).2).2 := a.2.2.trans b.2.2.symm
  apply List.ext_getElem (b.2.1.trans hl.symm)
  intro i h1 h2
  have h2 : i < arr.length := h2
  have h3 : i < (clientFreq nbits raw arr).2.length := by rw [a.2.1, ← hl]; exact h2
  have := congrArg (fun l => l[i]?) e
  simp only [List.getElem?_zipWith, List.getElem?_eq_getElem h1, List.getElem?_eq_getElem h2, List.getElem?_eq_getElem h3, Option.some.injEq] at this
  generalize (clientFreq nbits raw (clientFreq nbits raw arr).2).2[i] = x at *
  generalize (clientFreq nbits raw arr).2[i] = y at *
  show x = arr[i]
  generalize arr[i] = z at *
  revert this
  cases x <;> cases y <;> cases z <;> decide

/-- The share for server 1 as a function of the array. -/
def share1 {nbits : ℕ} (hb : nbits ≤ 30) (raw : U64) : Arr nbits ≃ Arr nbits :=
  Function.Involutive.toPerm (fun a => ⟨(clientFreq nbits raw a.1).2, (clientFreq_vec hb raw a.2).2.1⟩) fun a => Subtype.ext (clientFreq_twice hb raw a)

/-- Arrays for which a client with another value sends the same to server 1. -/
def moveArr {nbits : ℕ} (hb : nbits ≤ 30) (raw raw' : U64) : Arr nbits ≃ Arr nbits := (share1 hb raw).trans (share1 hb raw')

theorem moveArr_share1 {nbits : ℕ} (hb : nbits ≤ 30) (raw raw' : U64) (a : Arr nbits) :
    (clientFreq nbits raw' (moveArr hb raw raw' a).1).2 = (clientFreq nbits raw a.1).2 :=
  clientFreq_twice hb raw' (share1 hb raw a)

/-- The bits in which server 0's rows of two runs differ. -/
def rowDiff (w : ℕ) (ks : List Bytes) (subs0 subs0' : List (Bytes × List Bool)) (i : ℕ) : Bool :=
  (ks.map (shareAt w subs0)).flatten.getD i false ^^ (ks.map (shareAt w subs0')).flatten.getD i false

theorem freq_hide1 (c : StoreCfg) {g0 g0' : StoreRng} (g1 : StoreRng) (hg : GoodRng intModulus g0) (hg' : GoodRng intModulus g0')
    {nbits : ℕ} (hb : nbits ≤ 30) {A0 A1 : List (Fin n ⊕ Bytes × List Bool)} (hA0 : Arrives key A0) (hA1 : Arrives key A1) (ht : A0.length < 2 ^ 32)
    (hcap : (keysOf (fill key A1 fun _ => [])).card ≤ A0.length) (hsz : (keysOf (fill key A1 fun _ => [])).card * 2 ^ nbits < 2 ^ 32)
    (raw raw' : Fin n → U64) (arr : Fin n → Arr nbits) {st0 st0' st1 : Store} (hst : StoresOk intModulus st0 st1)
    (hst' : StoresOk intModulus st0' st1) {ord : Map (List Bool) → Map (List Bool)} (ho : IsOrder ord)
    {subs0 subs0' subs1 : List (Bytes × List Bool)} (e0 : subs0 = fill key A0 fun i => (clientFreq nbits (raw i) (arr i).1).1)
    (e0' : subs0' = fill key A0 fun i => (clientFreq nbits (raw' i) (moveArr hb (raw i) (raw' i) (arr i)).1).1)
    (e1 : subs1 = fill key A1 fun i => (clientFreq nbits (raw i) (arr i).1).2)
    (hT : ∀ N ≤ A0.length * 2 ^ nbits, (stock0 intModulus c g0' st0' N).map (·.b2) =
      ((stock0 intModulus c g0 st0 N).map (·.b2)).mapIdx fun i b => b ^^ rowDiff (2 ^ nbits) (runKeys ord subs1) subs0 subs0' i)
    (hS : ∀ N ≤ A0.length * 2 ^ nbits, stockSeen intModulus c g0' g1 st0' st1 N = stockSeen intModulus c g0 g1 st0 st1 N) {s0 s0' s1 : Bytes}
    (h0 : FreqStream (2 ^ nbits) A0.length s0 subs0) (h0' : FreqStream (2 ^ nbits) A0.length s0' subs0')
    (h1 : FreqStream (2 ^ nbits) A1.length s1 subs1) : ∃ v,
      Gets1 (freqOp0 c g0 nbits A0.length s0 st0) (freqOp1 c g1 nbits A1.length s1 ord st1) v ∧
      Gets1 (freqOp0 c g0' nbits A0.length s0' st0') (freqOp1 c g1 nbits A1.length s1 ord st1) v := by
  have e1' : subs1 = fill key A1 fun i => (clientFreq nbits (raw' i) (moveArr hb (raw i) (raw' i) (arr i)).1).2 := by
    rw [e1]; congr 1; funext i; rw [moveArr_share1]
  have hks : (keysOf (fill key A1 fun _ => [])) = keysOf subs1 := by rw [e1]; exact keysOf_fill ..
  rw [hks] at hcap hsz
  obtain ⟨-, -, w0⟩ := h0.spec
  obtain ⟨-, -, w0'⟩ := h0'.spec
  obtain ⟨-, -, hv⟩ := freqOp_view c g1 hg hb ht h0 h1 hcap hsz hst ho rfl rfl rfl
  obtain ⟨-, -, hv'⟩ := freqOp_view c g1 hg' hb ht h0' h1 hcap hsz hst' ho rfl rfl rfl
  have hkl : (runKeys ord subs1).length * 2 ^ nbits ≤ A0.length * 2 ^ nbits := Nat.mul_le_mul_right _ (by rw [(runKeys_spec ho subs1).2.2]; exact hcap)
  generalize runKeys ord subs1 = ks at *
  have lx : ∀ subs : List (Bytes × List Bool), (∀ e ∈ subs, e.2.length = 2 ^ nbits) →
      (ks.map (shareAt (2 ^ nbits) subs)).flatten.length = ks.length * 2 ^ nbits := by
    intro subs h
    rw [length_flatten_const _ (2 ^ nbits) (by
      intro l hl
      obtain ⟨k, -, rfl⟩ := List.mem_map.1 hl
      exact firstOf_length h k), List.length_map]
  have hveil := veil_turn (x := (ks.map (shareAt (2 ^ nbits) subs0)).flatten) (x' := (ks.map (shareAt (2 ^ nbits) subs0')).flatten)
    (hT (ks.length * 2 ^ nbits) hkl) (by rw [lx _ w0, lx _ w0'])
    (fun i _ => by
      unfold rowDiff
      cases (ks.map (shareAt (2 ^ nbits) subs0)).flatten.getD i false <;> cases (ks.map (shareAt (2 ^ nbits) subs0')).flatten.getD i false <;> rfl)
  refine ⟨_, hv, ?_⟩
  have hw : ∀ k, weight (freqVec (2 ^ nbits) subs0' subs1 k) = weight (freqVec (2 ^ nbits) subs0 subs1 k) := by
    intro k
    by_cases hk : ∃ i, key i = k
    · obtain ⟨i, rfl⟩ := hk
      have a := honest_weight hb hA0 hA1 raw (arr := fun i => (arr i).1) (fun i => (arr i).2) i
      have b := honest_weight hb hA0 hA1 raw' (arr := fun i => (moveArr hb (raw i) (raw' i) (arr i)).1) (fun i => (moveArr hb (raw i) (raw' i) (arr i)).2) i
      rw [← e0, ← e1] at a
      rw [← e0', ← e1'] at b
      rw [a, b]
    · rw [e0, e0', e1, other_vec A0 A1 _ (fun i => (clientFreq nbits (raw i) (arr i).1).1) _ _ fun i hi => hk ⟨i, hi⟩]
  have hm : ∀ k, (List.lookup k (admit anyRow subs0' [])).isSome = (List.lookup k (admit anyRow subs0 [])).isSome := by
    intro k; rw [e0, e0']; exact lookup_fill ..
  rw [hveil, hS _ hkl] at hv'
  have hs1 : freqSeen1 A0.length (admit anyRow subs0' []) ks (freqVec (2 ^ nbits) subs0' subs1) =
      freqSeen1 A0.length (admit anyRow subs0 []) ks (freqVec (2 ^ nbits) subs0 subs1) := by
    unfold freqSeen1 freqVerdicts
    simp only [hw, hm]
  rwa [hs1] at hv'

/-- What holds of C65 for server 1 in the compiled-in setting. Full statement: server 1 learns nothing about the honest clients' values. Missing:
the draws with `r = p - 2`, for which the bit of the daBit is certainly 0 and server 1 sees that (`C65_lazy_dabit_one`). For all other draws:
if the honest clients' values are replaced by any others, there are bijections of the clients' arrays, of server 0's draws and of the stores of
server 0 that match server 1's, under which server 1 gets the same submissions and the same messages. -/
theorem C65_freq_server1_lazy_partial {c : StoreCfg} (hl : c.lazy = true) (g1 : StoreRng) {nbits : ℕ} (hb : nbits ≤ 30)
    {A0 A1 : List (Fin n ⊕ Bytes × List Bool)} (hA0 : Arrives key A0) (hA1 : Arrives key A1) (ht : A0.length < 2 ^ 32)
    (hcap : (keysOf (fill key A1 fun _ => [])).card ≤ A0.length) (hsz : (keysOf (fill key A1 fun _ => [])).card * 2 ^ nbits < 2 ^ 32)
    (raw raw' : Fin n → U64) (st1 : Store) {ord : Map (List Bool) → Map (List Bool)} (ho : IsOrder ord) :
    ∃ E : Fin n → (Arr nbits ≃ Arr nbits), ∀ arr : Fin n → Arr nbits,
      (∀ i, (clientFreq nbits (raw' i) (E i (arr i)).1).2 = (clientFreq nbits (raw i) (arr i).1).2) ∧
      ∃ (e : {g // OpenRng intModulus g} ≃ {g // OpenRng intModulus g})
        (τ : {st0 // StoresOk intModulus st0 st1} ≃ {st0 // StoresOk intModulus st0 st1}), ∀ g0 st0 s0 s0' s1,
        FreqStream (2 ^ nbits) A0.length s0 (fill key A0 fun i => (clientFreq nbits (raw i) (arr i).1).1) →
        FreqStream (2 ^ nbits) A0.length s0' (fill key A0 fun i => (clientFreq nbits (raw' i) (E i (arr i)).1).1) →
        FreqStream (2 ^ nbits) A1.length s1 (fill key A1 fun i => (clientFreq nbits (raw i) (arr i).1).2) → ∃ v,
          Gets1 (freqOp0 c g0.1 nbits A0.length s0 st0.1) (freqOp1 c g1 nbits A1.length s1 ord st1) v ∧
          Gets1 (freqOp0 c (e g0).1 nbits A0.length s0' (τ st0).1) (freqOp1 c g1 nbits A1.length s1 ord st1) v := by
  refine ⟨fun i => moveArr hb (raw i) (raw' i), fun arr => ⟨fun i => moveArr_share1 hb _ _ _, ?_⟩⟩
  set δ := rowDiff (2 ^ nbits) (runKeys ord (fill key A1 fun i => (clientFreq nbits (raw i) (arr i).1).2))
    (fill key A0 fun i => (clientFreq nbits (raw i) (arr i).1).1)
    (fill key A0 fun i => (clientFreq nbits (raw' i) (moveArr hb (raw i) (raw' i) (arr i)).1).1) with hδ
  refine ⟨turnOpen intModulus δ st1.dabits.length, turn0 st1 δ, fun g0 st0 s0 s0' s1 h0 h0' h1 => ?_⟩
  have hT := fun N => stock_turnLazy (by decide : intModulus % 2 = 1) hl g0 g1 st0 δ N
  exact freq_hide1 c g1 g0.2.1 (turnOpen intModulus δ st1.dabits.length g0).2.1 hb hA0 hA1 ht hcap hsz raw raw' arr st0.2 (turn0 st1 δ st0).2 ho
    rfl rfl rfl (fun N _ => (hT N).1) (fun N _ => (hT N).2.2) h0 h0' h1

/-- What holds of C65 for server 1 with jointly made daBits. Missing: the masks of server 0 are taken to be uniform residues; the code reduces a
uniform 64-bit word (`C64_mask_bias`). -/
theorem C65_freq_server1_joint_partial {c : StoreCfg} (hl : c.lazy = false) {g : StoreRng} (hg : GoodRng intModulus g) (g1 : StoreRng) {nbits : ℕ}
    (hb : nbits ≤ 30) {A0 A1 : List (Fin n ⊕ Bytes × List Bool)} (hA0 : Arrives key A0) (hA1 : Arrives key A1) (ht : A0.length < 2 ^ 32)
    (hcap : (keysOf (fill key A1 fun _ => [])).card ≤ A0.length) (hsz : (keysOf (fill key A1 fun _ => [])).card * 2 ^ nbits < 2 ^ 32)
    (raw raw' : Fin n → U64) (st1 : Store) {ord : Map (List Bool) → Map (List Bool)} (ho : IsOrder ord) :
    ∃ E : Fin n → (Arr nbits ≃ Arr nbits), ∀ arr : Fin n → Arr nbits,
      (∀ i, (clientFreq nbits (raw' i) (E i (arr i)).1).2 = (clientFreq nbits (raw i) (arr i).1).2) ∧
      ∃ (e : MaskRng ≃ MaskRng) (τ : {st0 // StoresOk intModulus st0 st1} ≃ {st0 // StoresOk intModulus st0 st1}), ∀ d st0 s0 s0' s1,
        FreqStream (2 ^ nbits) A0.length s0 (fill key A0 fun i => (clientFreq nbits (raw i) (arr i).1).1) →
        FreqStream (2 ^ nbits) A0.length s0' (fill key A0 fun i => (clientFreq nbits (raw' i) (E i (arr i)).1).1) →
        FreqStream (2 ^ nbits) A1.length s1 (fill key A1 fun i => (clientFreq nbits (raw i) (arr i).1).2) → ∃ v,
          Gets1 (freqOp0 c (d.rng g) nbits A0.length s0 st0.1) (freqOp1 c g1 nbits A1.length s1 ord st1) v ∧
          Gets1 (freqOp0 c ((e d).rng g) nbits A0.length s0' (τ st0).1) (freqOp1 c g1 nbits A1.length s1 ord st1) v := by
  refine ⟨fun i => moveArr hb (raw i) (raw' i), fun arr => ⟨fun i => moveArr_share1 hb _ _ _, ?_⟩⟩
  set δ := rowDiff (2 ^ nbits) (runKeys ord (fill key A1 fun i => (clientFreq nbits (raw i) (arr i).1).2))
    (fill key A0 fun i => (clientFreq nbits (raw i) (arr i).1).1)
    (fill key A0 fun i => (clientFreq nbits (raw' i) (moveArr hb (raw i) (raw' i) (arr i)).1).1) with hδ
  refine ⟨turnMasks δ st1.dabits.length fun i => (g1.da st1.calls i).1, turn0 st1 δ, fun d st0 s0 s0' s1 h0 h0' h1 => ?_⟩
  have hT := fun N => stock_turnMasks hl d g g1 st0 δ N rfl
  exact freq_hide1 c g1 (g0 := d.rng g) (g0' := MaskRng.rng (turnMasks δ st1.dabits.length (fun i => (g1.da st1.calls i).1) d) g) hg hg hb hA0 hA1 ht hcap
    hsz raw raw' arr st0.2 (turn0 st1 δ st0).2 ho rfl rfl rfl (fun N _ => (hT N).1) (fun N _ => (hT N).2.2) h0 h0' h1

/-- The exceptional draws: if server 1's half of a daBit that server 0 made alone is 1, the bit is 0, and server 1's boolean half is server 0's;
every other value of server 1's half leaves both bits possible. -/
theorem C65_lazy_dabit_one {p : ℕ} {b r : ℤ} (h : IsDaDraw p b r) :
    ((makeLocalDaBit p b r).2.bp = 1 → b = 0) ∧ ((makeLocalDaBit p b r).2.bp ≠ 1 → IsDaDraw p (1 - b) r ∧
      (makeLocalDaBit p (1 - b) r).2.bp = (makeLocalDaBit p b r).2.bp) := by
  have e := dabit_bp1 h
  obtain ⟨h1, h2, h3⟩ := h
  constructor
  · intro h; rw [e] at h; omega
  · intro h
    rw [e] at h
    have hd : IsDaDraw p (1 - b) r := ⟨by omega, h2, by omega⟩
    exact ⟨hd, by rw [dabit_bp1 hd, e]⟩

/-! ## Witnesses -/

/-- C65 is false of the compiled-in setting, concretely: two honest clients with the values 0 and 1 or 1 and 0. The answer is the same, and yet
whatever server 1 draws in the two runs, server 0 gets different messages. -/
theorem C65_freq_lazy_false {c : StoreCfg} (hl : c.lazy = true) {g0 : StoreRng} (hg : GoodRng intModulus g0) {st0 st1 : Store}
    (hst : StoresOk intModulus st0 st1) {ord : Map (List Bool) → Map (List Bool)} (ho : IsOrder ord) :
    (∀ raw : U64 × U64, raw = (0#64, 1#64) ∨ raw = (1#64, 0#64) → ∀ g1, ∃ st0' st1' q, Ends
      (freqOp0 c g0 1 2 (encFreqShares [(keyA, (clientFreq 1 raw.1 [false, false]).1), (keyB, (clientFreq 1 raw.2 [false, false]).1)]) st0)
      (freqOp1 c g1 1 2 (encFreqShares [(keyA, (clientFreq 1 raw.1 [false, false]).2), (keyB, (clientFreq 1 raw.2 [false, false]).2)]) ord st1)
      (.ans [1, 1], st0') (.noAns, st1') q []) ∧
    ∀ g1 g1' v v', Gets0 (freqOp0 c g0 1 2 (encFreqShares [(keyA, (clientFreq 1 0#64 [false, false]).1), (keyB, (clientFreq 1 1#64 [false, false]).1)]) st0)
      (freqOp1 c g1 1 2 (encFreqShares [(keyA, (clientFreq 1 0#64 [false, false]).2), (keyB, (clientFreq 1 1#64 [false, false]).2)]) ord st1) v →
      Gets0 (freqOp0 c g0 1 2 (encFreqShares [(keyA, (clientFreq 1 1#64 [false, false]).1), (keyB, (clientFreq 1 0#64 [false, false]).1)]) st0)
      (freqOp1 c g1' 1 2 (encFreqShares [(keyA, (clientFreq 1 1#64 [false, false]).2), (keyB, (clientFreq 1 0#64 [false, false]).2)]) ord st1) v' → v ≠ v' := by
  constructor
  · rintro raw (rfl | rfl) g1
    · obtain ⟨st0', st1', -, h, -⟩ := C44_freq_op c (g1 := g1) hg (nbits := 1) (total0 := 2) (total1 := 2) (by norm_num) (by norm_num)
        (freqStream_of (subs := [(keyA, [false, false]), (keyB, [false, false])]) rfl (by decide))
        (freqStream_of (subs := [(keyA, [true, false]), (keyB, [false, true])]) rfl (by decide)) (by decide) (by decide) hst ord ho
      exact ⟨st0', st1', _, h (by decide)⟩
    · obtain ⟨st0', st1', -, h, -⟩ := C44_freq_op c (g1 := g1) hg (nbits := 1) (total0 := 2) (total1 := 2) (by norm_num) (by norm_num)
        (freqStream_of (subs := [(keyA, [false, false]), (keyB, [false, false])]) rfl (by decide))
        (freqStream_of (subs := [(keyA, [false, true]), (keyB, [true, false])]) rfl (by decide)) (by decide) (by decide) hst ord ho
      exact ⟨st0', st1', _, h (by decide)⟩
  · rintro g1 g1' v _ hv hv' rfl
    have h := (C65_freq_lazy_leak hl g1 g1' hg (nbits := 1) (total0 := 2) (by norm_num) (by norm_num)
      (freqStream_of (subs := [(keyA, [false, false]), (keyB, [false, false])]) rfl (by decide))
      (freqStream_of (subs := [(keyA, [true, false]), (keyB, [false, true])]) rfl (by decide))
      (freqStream_of (subs := [(keyA, [false, true]), (keyB, [true, false])]) rfl (by decide)) (by decide) (by decide) (by decide) (by decide)
      hst hst rfl ho ho hv hv').1 keyA
    revert h
    decide

/-- Non-vacuity: two honest clients and another one, known to server 1 only; values 0, 1 or 1, 0; the streams that they make. -/
example : ∃ (key : Fin 2 → Bytes) (A0 A1 : List (Fin 2 ⊕ Bytes × List Bool)) (raw raw' : Fin 2 → U64) (arr : Fin 2 → Arr 1),
    Arrives key A0 ∧ Arrives key A1 ∧ (keysOf (fill key A1 fun _ => [])).card ≤ A0.length ∧
    (keysOf (fill key A1 fun _ => [])).card * 2 ^ 1 < 2 ^ 32 ∧ raw ≠ raw' ∧
    (∀ j, (Finset.univ.filter fun i => freqValue 1 (raw i) = j).card = (Finset.univ.filter fun i => freqValue 1 (raw' i) = j).card) ∧
    IsOrder (id : Map (List Bool) → Map (List Bool)) ∧ ByKeys (id : Map (List Bool) → Map (List Bool)) ∧ GoodRng intModulus exampleRng ∧
    OpenRng intModulus exampleRng ∧ StoresOk intModulus ⟨[], [], 0⟩ ⟨[], [], 0⟩ ∧
    (∀ raw : Fin 2 → U64, ∃ s0, FreqStream (2 ^ 1) A0.length s0 (fill key A0 fun i => (clientFreq 1 (raw i) (arr i).1).1)) ∧
    ∀ raw : Fin 2 → U64, ∃ s1, FreqStream (2 ^ 1) A1.length s1 (fill key A1 fun i => (clientFreq 1 (raw i) (arr i).1).2) := by
  have ext : ∀ (A : List (Fin 2 ⊕ Bytes × List Bool)) (f : Fin 2 → List Bool), (∀ e, Sum.inr e ∈ A → e.1.length = pkLength ∧ e.2.length = 2 ^ 1) →
      (∀ i, (f i).length = 2 ^ 1) → ∃ s, FreqStream (2 ^ 1) A.length s (fill ![keyA, keyB] A f) := by
    intro A f hA hf
    have := freq_stream (w := 2 ^ 1) (subs := fill ![keyA, keyB] A f) (by
      intro e he
      obtain ⟨q, hq, rfl⟩ := List.mem_map.1 he
      rcases q with i | e
      · refine ⟨?_, hf i⟩
        have : ∀ i : Fin 2, ((![keyA, keyB] : Fin 2 → Bytes) i).length = pkLength := by decide
        exact this i
      · exact hA e hq) []
    rw [fill, List.length_map] at this
    exact ⟨_, this⟩
  have hk : (⟨[false, true], by decide⟩ : Arr 1).1.length = 2 ^ 1 := by decide
  refine ⟨![keyA, keyB], [.inl 0, .inl 1, .inl 0], [.inl 1, .inr (List.replicate 32 9#8, [true, true]), .inl 0], ![0#64, 1#64], ![1#64, 0#64],
    fun _ => ⟨[false, true], by decide⟩, ⟨by decide, fun i => by fin_cases i <;> simp, by simp⟩, ⟨by decide, fun i => by fin_cases i <;> simp, ?_⟩, by decide, by decide, by decide, ?_,
    fun m => List.Perm.refl _, fun m m' h => h, exampleRng_good, ⟨exampleRng_good, ?_⟩, emptyStoresOk _, ?_, ?_⟩
  · intro e he
    simp only [List.mem_cons, Sum.inr.injEq, reduceCtorEq, false_or, List.not_mem_nil, or_false] at he
    subst he
    decide
  · intro j
    rcases j with _ | _ | j
    · decide
    · decide
    · have : ∀ raw : Fin 2 → U64, (Finset.univ.filter fun i => freqValue 1 (raw i) = j + 1 + 1) = ∅ := by
        intro raw
        refine Finset.filter_eq_empty_iff.2 fun i _ h => ?_
        have := Nat.mod_lt (raw i).toNat (show 0 < 2 ^ 1 by decide)
        unfold freqValue at h
        omega
      rw [this, this]
  · intro c i
    have h1 : ((i : ℤ) % 7) < 7 := Int.emod_lt_of_pos _ (by norm_num)
    have h2 : (intModulus : ℤ) = 140737597931521 := by norm_num [intModulus]
    show (i : ℤ) % 7 < _
    rw [h2]; linarith
  · intro raw
    exact ext _ _ (by simp) fun i => (clientFreq_vec (by decide) (raw i) hk).1
  · intro raw
    refine ext _ _ ?_ fun i => (clientFreq_vec (by decide) (raw i) hk).2.1
    intro e he
    simp only [List.mem_cons, Sum.inr.injEq, reduceCtorEq, false_or, List.not_mem_nil, or_false] at he
    subst he
    decide

end Verif

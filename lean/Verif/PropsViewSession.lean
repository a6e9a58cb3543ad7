import Verif.LemmasViewSession

/-!
# C78: what a server learns over a whole session
-/

namespace Verif

/-! ## Server 1 -/

/-- Two queries that differ only in what server 0 gets, under the same keys. -/
def Batch.Same1 (nbits : ℕ) : Batch → Batch → Prop
  | .idle _, .idle _ => True
  | .bitSum a b, .bitSum a' b' => b = b' ∧ SameKeys (fun _ => true) a a'
  | .intSum a b, .intSum a' b' => b = b' ∧ SameKeys (belowBits nbits) a a'
  | .xor _ a b, .xor _ a' b' => b = b' ∧ SameKeys (fun _ => true) a a'
  | .max _ _ a b, .max _ _ a' b' => b = b' ∧ SameKeys (fun _ => true) a a'
  | _, _ => False

theorem Batch.Same1.plain {nbits : ℕ} {b b' : Batch} (h : b.Same1 nbits b') : b.Plain ∧ b'.Plain := by
  cases b <;> cases b' <;> first | exact h.elim | exact ⟨trivial, trivial⟩

theorem matched_same {α : Type} {a a' : List (Bytes × α)} (h : SameKeys (fun _ => true) a a') (ks : List Bytes) :
    matched (admit (fun _ => true) a []) ks = matched (admit (fun _ => true) a' []) ks := by
  unfold matched
  refine List.map_congr_left fun k _ => ?_
  rw [C34_first_admissible, C34_first_admissible]
  exact h k

theorem seen1_same {nbits : ℕ} {b b' : Batch} (h : b.Same1 nbits b') (e e' : Env) (ord : {α : Type} → Map α → Map α) :
    ∃ d : Shift, ∀ m : Masks, b.seen1 nbits (e.masked m) ord = b'.seen1 nbits (e'.masked (m.shift d)) ord := by
  cases b <;> cases b' <;> try exact h.elim
  · exact ⟨⟨fun _ => 0, fun _ _ => 0⟩, fun _ => rfl⟩
  · obtain ⟨rfl, hk⟩ := h
    rename_i a b a'
    obtain ⟨d, hd⟩ := bit_choose_shift (admit (fun _ => true) a []) (admit (fun _ => true) a' []) (ord (admit (fun _ => true) b []))
      fun e _ => by rw [C34_first_admissible, C34_first_admissible]; exact hk e.1
    exact ⟨⟨d, fun _ _ => 0⟩, fun m => congrArg seenWords (hd e.junkBit e'.junkBit m.bit)⟩
  · obtain ⟨rfl, hk⟩ := h
    rename_i a b a'
    obtain ⟨d, hd⟩ := int_choose_shift nbits (admit (belowBits nbits) a []) (admit (belowBits nbits) a' []) (ord (admit (belowBits nbits) b []))
      fun e _ => by rw [C34_first_admissible, C34_first_admissible]; exact hk e.1
    exact ⟨⟨fun _ => 0, d⟩, fun m => congrArg seenWords (hd e.junkWord e'.junkWord m.word)⟩
  · obtain ⟨rfl, hk⟩ := h
    exact ⟨⟨fun _ => 0, fun _ _ => 0⟩, fun m => by simp only [Batch.seen1, matched_same hk]⟩
  · obtain ⟨rfl, hk⟩ := h
    exact ⟨⟨fun _ => 0, fun _ _ => 0⟩, fun m => by simp only [Batch.seen1, matched_same hk]⟩

/-- A query in two worlds. Server 1 gets the same connection `e1`; server 0 gets `e0` with the batch `b`, or `e0'` with the batch `b'`. -/
structure Twin1 where
  b : Batch
  b' : Batch
  e0 : Env
  e0' : Env
  e1 : Env

/-- Both worlds meet the requirements of C47, and the batches differ only in the values under the keys at server 0. -/
structure Twin1.Ok (nbits : ℕ) (t : Twin1) : Prop where
  one : RoundOk nbits (t.b, t.e0, t.e1)
  two : RoundOk nbits (t.b', t.e0', t.e1)
  draw : t.e0'.draw = t.e0.draw
  same : t.b.Same1 nbits t.b'

theorem zipWith_drop_right {α β γ : Type*} (f : α → γ) : ∀ (l : List α) (m : List β), m.length = l.length → List.zipWith (fun a _ => f a) l m = l.map f
  | [], _, _ => by simp
  | a :: l, [], h => by simp at h
  | a :: l, b :: m, h => by
    rw [List.zipWith_cons_cons, List.map_cons, zipWith_drop_right f l m (by simpa using h)]

/-- C78 for server 1: over any session of BIT_SUM, INT_SUM, AND, OR, MAX and MIN queries, in which server 0 gets other values under the same
keys, there is a change of server 0's masks, query by query and independent of the masks, under which all that server 1 ever sees is the
same. The masks are uniform, so the view of the whole session has the same distribution for all values at server 0. Clients may be
malicious, and the same keys may come back in any number of queries. -/
theorem C78_server1 (c : StoreCfg) {g0 g1 : StoreRng} (hg : GoodRng intModulus g0) {nbits : ℕ} (coef : ℕ → ℤ) (ts : List Twin1)
    (ht : ∀ t ∈ ts, t.Ok nbits) {y : Shared} {s0 s1 : Srv} (hs : InStep y s0 s1) :
    ∃ ds : List Shift, ds.length = ts.length ∧ ∀ ms : List Masks, ms.length = ts.length → ∃ v,
      Sees1 (session false c g0 nbits coef (List.zipWith (fun t m => t.e0.masked m) ts ms) s0)
        (session true c g1 nbits coef (ts.map (·.e1)) s1) v ∧
      Sees1 (session false c g0 nbits coef (List.zipWith (fun t m => t.e0'.masked m) ts (List.zipWith Masks.shift ms ds)) s0)
        (session true c g1 nbits coef (ts.map (·.e1)) s1) v := by
  have key : ∀ t : Twin1, ∃ d : Shift, t ∈ ts → ∀ m : Masks, t.b.seen1 nbits (t.e0.masked m) t.e1.ord =
      t.b'.seen1 nbits (t.e0'.masked (m.shift d)) t.e1.ord := by
    intro t
    by_cases h : t ∈ ts
    · obtain ⟨d, hd⟩ := seen1_same (ht t h).same t.e0 t.e0' t.e1.ord
      exact ⟨d, fun _ => hd⟩
    · exact ⟨⟨fun _ => 0, fun _ _ => 0⟩, fun h' => absurd h' h⟩
  choose d hd using key
  refine ⟨ts.map d, List.length_map _, fun ms hl => ?_⟩
  let L := List.zipWith (fun (t : Twin1) (m : Masks) =>
    ((t.b, t.e0.masked m, t.e1), (t.b', t.e0'.masked (m.shift (d t)), t.e1))) ts ms
  have mem : ∀ r ∈ L, ∃ t ∈ ts, ∃ m, r = ((t.b, t.e0.masked m, t.e1), (t.b', t.e0'.masked (m.shift (d t)), t.e1)) := by
    intro r hr
    obtain ⟨i, hi, rfl⟩ := List.getElem_of_mem hr
    simp only [L, List.length_zipWith] at hi
    exact ⟨ts[i], List.getElem_mem _, ms[i], by simp only [L, List.getElem_zipWith]⟩
  obtain ⟨a, b, a', b', v0, v1, v0', v1', hA, hB, -, e1⟩ := session_views c (g1 := g1) hg coef L (by
    intro r hr
    obtain ⟨t, h, m, rfl⟩ := mem r hr
    have o := ht t h
    exact ⟨⟨o.one.arrives, o.one.ok, o.one.ord, o.one.draw⟩, ⟨o.two.arrives, o.two.ok, o.two.ord, o.two.draw⟩, o.same.plain.1, o.same.plain.2,
      o.draw, rfl⟩) hs
  have hv := e1 (by
    intro r hr
    obtain ⟨t, h, m, rfl⟩ := mem r hr
    exact hd t h m)
  have m1 : L.map (·.1.2.1) = List.zipWith (fun t m => t.e0.masked m) ts ms := List.map_zipWith ..
  have m2 : L.map (·.1.2.2) = ts.map (·.e1) := (List.map_zipWith ..).trans (zipWith_drop_right (fun t => t.e1) ts ms hl)
  have m3 : L.map (·.2.2.2) = ts.map (·.e1) := (List.map_zipWith ..).trans (zipWith_drop_right (fun t => t.e1) ts ms hl)
  have m4 : L.map (·.2.2.1) = List.zipWith (fun t m => t.e0'.masked m) ts (List.zipWith Masks.shift ms (ts.map d)) := by
    refine (List.map_zipWith ..).trans ?_
    clear * - hl
    induction ts generalizing ms with
    | nil => rfl
    | cons t ts ih =>
      cases ms with
      | nil => simp at hl
      | cons m ms =>
        simp only [List.zipWith_cons_cons, List.map_cons]
        rw [ih ms (by simpa using hl)]
  rw [m1, m2] at hA
  rw [m3, m4] at hB
  exact ⟨v1, hA.sees1, hv ▸ hB.sees1⟩

/-- A change of the masks is one to one and onto. -/
theorem shift_bijective (d : Shift) : Function.Bijective fun m : Masks => m.shift d := by
  refine ⟨fun m m' h => ?_, fun m => ⟨⟨fun i => m.bit i - d.bit i, fun i j k => m.word i j k - d.word i k⟩, ?_⟩⟩
  · have h1 := congrArg Masks.bit h
    have h2 := congrArg Masks.word h
    cases m; cases m'
    simp only [Masks.shift, Masks.mk.injEq] at h1 h2 ⊢
    exact ⟨funext fun i => add_right_cancel (congrFun h1 i), funext fun i => funext fun j => funext fun k =>
      add_right_cancel (congrFun (congrFun (congrFun h2 i) j) k)⟩
  · cases m
    simp [Masks.shift]

/-! ## Server 0 -/

/-- Two queries that differ only in what server 1 gets, with the same keys announced in the same order and the same aggregate. -/
def Batch.Same0 (nbits : ℕ) (ord ord' : {α : Type} → Map α → Map α) : Batch → Batch → Prop
  | .idle _, .idle _ => True
  | .bitSum a b, .bitSum a' b' => a' = a ∧ (ord' (admit (fun _ => true) b' [])).keys = (ord (admit (fun _ => true) b [])).keys ∧
      bitCount a b' = bitCount a b
  | .intSum a b, .intSum a' b' => a' = a ∧ (ord' (admit (belowBits nbits) b' [])).keys = (ord (admit (belowBits nbits) b [])).keys ∧
      intTotal nbits a b' % 2 ^ 64 = intTotal nbits a b % 2 ^ 64
  | .xor _ a b, .xor _ a' b' => a' = a ∧ (ord' (admit (fun _ => true) b' [])).keys = (ord (admit (fun _ => true) b [])).keys ∧ xorAgg a b' = xorAgg a b
  | .max _ B a b, .max _ B' a' b' => B' = B ∧ a' = a ∧ (ord' (admit (fun _ => true) b' [])).keys = (ord (admit (fun _ => true) b [])).keys ∧
      ∀ j ≤ B, maxCol a b' j = maxCol a b j
  | _, _ => False

theorem Batch.Same0.plain {nbits : ℕ} {ord ord' : {α : Type} → Map α → Map α} {b b' : Batch} (h : b.Same0 nbits ord ord' b') : b.Plain ∧ b'.Plain := by
  cases b <;> cases b' <;> first | exact h.elim | exact ⟨trivial, trivial⟩

theorem seen0_same {nbits : ℕ} {ord ord' : {α : Type} → Map α → Map α} {b b' : Batch} (h : b.Same0 nbits ord ord' b') (e : Env) :
    b.seen0 nbits e ord = b'.seen0 nbits e ord' := by
  cases b <;> cases b' <;> try exact h.elim
  · rfl
  · obtain ⟨rfl, hk, hc⟩ := h
    simp only [Batch.seen0, hk, hc]
  · obtain ⟨rfl, hk, hc⟩ := h
    rename_i b a b'
    have e : (BitVec.ofNat 64 (intTotal nbits a b') : U64) = BitVec.ofNat 64 (intTotal nbits a b) := by
      apply BitVec.eq_of_toNat_eq
      rw [BitVec.toNat_ofNat, BitVec.toNat_ofNat, hc]
    simp only [Batch.seen0, hk, e]
  · obtain ⟨rfl, hk, hc⟩ := h
    simp only [Batch.seen0, hk, hc]
  · obtain ⟨rfl, rfl, hk, hc⟩ := h
    simp only [Batch.seen0, hk]
    congr 3
    refine List.map_congr_left fun j hj => ?_
    rw [hc j (by have := List.mem_range.1 hj; omega)]

/-- A query in two worlds. Server 0 gets the same connection `e0`; server 1 gets `e1` with the batch `b`, or `e1'` with the batch `b'`. -/
structure Twin0 where
  b : Batch
  b' : Batch
  e0 : Env
  e1 : Env
  e1' : Env

/-- Both worlds meet the requirements of C47, and the batches differ only in what does not change the aggregate. -/
structure Twin0.Ok (nbits : ℕ) (t : Twin0) : Prop where
  one : RoundOk nbits (t.b, t.e0, t.e1)
  two : RoundOk nbits (t.b', t.e0, t.e1')
  draw : t.e1'.draw = t.e1.draw
  same : t.b.Same0 nbits t.e1.ord t.e1'.ord t.b'

/-- C78 for server 0: over any session of BIT_SUM, INT_SUM, AND, OR, MAX and MIN queries, all that server 0 ever sees is determined by what
it is sent itself, the keys, and the aggregate of each query. -/
theorem C78_server0 (c : StoreCfg) {g0 g1 : StoreRng} (hg : GoodRng intModulus g0) {nbits : ℕ} (coef : ℕ → ℤ) (ts : List Twin0)
    (ht : ∀ t ∈ ts, t.Ok nbits) {y : Shared} {s0 s1 : Srv} (hs : InStep y s0 s1) :
    ∃ v, Sees0 (session false c g0 nbits coef (ts.map (·.e0)) s0) (session true c g1 nbits coef (ts.map (·.e1)) s1) v ∧
      Sees0 (session false c g0 nbits coef (ts.map (·.e0)) s0) (session true c g1 nbits coef (ts.map (·.e1')) s1) v := by
  obtain ⟨a, b, a', b', v0, v1, v0', v1', hA, hB, e0, -⟩ := session_views c (g1 := g1) hg coef
    (ts.map fun t => ((t.b, t.e0, t.e1), (t.b', t.e0, t.e1'))) (by
      intro r hr
      obtain ⟨t, h, rfl⟩ := List.mem_map.1 hr
      have o := ht t h
      exact ⟨o.one, o.two, o.same.plain.1, o.same.plain.2, rfl, o.draw⟩) hs
  have hv := e0 (by
    intro r hr
    obtain ⟨t, h, rfl⟩ := List.mem_map.1 hr
    exact seen0_same (ht t h).same t.e0)
  simp only [List.map_map, Function.comp_def] at hA hB
  exact ⟨v0, hA.sees0, hv ▸ hB.sees0⟩

/-! ## Examples -/

/-- The same key in two worlds: server 0 gets another share. -/
example : (⟨.bitSum [(keyA, true)] [(keyA, false)], .bitSum [(keyA, false)] [(keyA, false)], plainEnv (encInit ⟨1, 1, 0⟩ ++ encBitShares [(keyA, true)]),
    plainEnv (encInit ⟨1, 1, 0⟩ ++ encBitShares [(keyA, false)]), plainEnv (encInit ⟨1, 1, 0⟩ ++ encBitShares [(keyA, false)])⟩ : Twin1).Ok 4 := by
  have op : ∀ l : List (Bytes × Bool), l.length = 1 → Opens 1#32 l.length none (encInit ⟨1, 1, 0⟩ ++ encBitShares l) (encBitShares l ++ []) := fun l h =>
    ⟨by omega, 0, by simp, by rw [h, List.append_nil]; rfl⟩
  refine ⟨⟨⟨[], [], op _ rfl, op _ rfl⟩, ⟨by unfold Keyed; decide, by unfold Keyed; decide⟩, plain_order _, by simp only [Canon, plainEnv]; decide⟩,
    ⟨⟨[], [], op _ rfl, op _ rfl⟩, ⟨by unfold Keyed; decide, by unfold Keyed; decide⟩, plain_order _, by simp only [Canon, plainEnv]; decide⟩, rfl, rfl, ?_⟩
  intro k
  by_cases h : keyA = k <;> simp [firstOf, h]

/-- Two keys at server 1, whose shares are both turned over: the count is the same. -/
example : (Batch.bitSum [(keyA, true), (keyB, false)] [(keyA, false), (keyB, false)]).Same0 4 (fun m => m) (fun m => m)
    (Batch.bitSum [(keyA, true), (keyB, false)] [(keyA, true), (keyB, true)]) := ⟨rfl, by decide, by decide⟩

end Verif

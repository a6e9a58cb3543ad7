import Verif.PropsViewSession

/-!
# C78, continued: sessions of honest clients

Every query is made by clients with distinct keys, each of which sends its two shares as the client program does. Server 0 cannot tell apart
two sessions with the same answers.
-/

namespace Verif

/-! ## Honest queries -/

/-- The clients of a query: their keys, their draws for the share of server 0, and the orders in which their submissions are sent. -/
structure Crowd (σ : Type) where
  n : ℕ
  pk : Fin n → Bytes
  share : Fin n → σ
  l0 : List (Fin n)
  l1 : List (Fin n)

structure Crowd.Ok {σ : Type} (c : Crowd σ) : Prop where
  small : c.n < 2 ^ 32
  distinct : Function.Injective c.pk
  keys : ∀ i, (c.pk i).length = pkLength
  perm0 : c.l0.Perm (List.finRange c.n)
  perm1 : c.l1.Perm (List.finRange c.n)

/-- What is sent to server 0 and to server 1. -/
def Crowd.first {σ α : Type} (c : Crowd σ) (f : Fin c.n → α) : List (Bytes × α) := c.l0.map fun i => (c.pk i, f i)
def Crowd.second {σ α : Type} (c : Crowd σ) (f : Fin c.n → α) : List (Bytes × α) := c.l1.map fun i => (c.pk i, f i)

inductive Query where
  | bitSum (c : Crowd Bool)
  | intSum (c : Crowd U64)
  | xor (isAnd : Bool) (c : Crowd U64)
  | max (isMax : Bool) (B : ℕ) (c : Crowd (ℕ → U64))

/-- The values of the clients. -/
def Query.Val : Query → Type
  | .bitSum c => Fin c.n → Bool
  | .intSum c => Fin c.n → U64
  | .xor _ c => Fin c.n → Bool
  | .max _ _ c => Fin c.n → ℕ

/-- The random words of the encodings of AND, OR, MAX and MIN. -/
def Query.Rand : Query → Type
  | .bitSum _ | .intSum _ => Unit
  | .xor _ c => Fin c.n → U64
  | .max _ B c => Fin c.n → Fin (B + 1) → U64

/-- The submissions of a query (`ModelClient`). -/
def Query.batch (nbits : ℕ) : (q : Query) → q.Val → q.Rand → Batch
  | .bitSum c, v, _ => .bitSum (c.first fun i => (clientBit (v i) (c.share i)).1) (c.second fun i => (clientBit (v i) (c.share i)).2)
  | .intSum c, v, _ => .intSum (c.first fun i => (clientInt nbits (v i) (c.share i)).2.1) (c.second fun i => (clientInt nbits (v i) (c.share i)).2.2)
  | .xor t c, v, r => .xor t (c.first fun i => (clientXor t (v i) (r i) (c.share i)).1) (c.second fun i => (clientXor t (v i) (r i) (c.share i)).2)
  | .max t B c, v, r => .max t B (c.first fun i => (clientMax t B (v i) (wordAt (r i)) (c.share i)).1)
      (c.second fun i => (clientMax t B (v i) (wordAt (r i)) (c.share i)).2)

/-- The bytes sent to server 0. They do not depend on the values. -/
def Query.bytes0 (nbits : ℕ) : Query → Bytes
  | .bitSum c => encInit ⟨1#32, BitVec.ofNat 32 c.n, 0⟩ ++ encBitShares (c.first c.share)
  | .intSum c => encInit ⟨2#32, BitVec.ofNat 32 c.n, 0⟩ ++ encIntShares (c.first fun i => c.share i % (1#64 <<< nbits))
  | .xor t c => encInit ⟨if t then 3#32 else 4#32, BitVec.ofNat 32 c.n, 0⟩ ++ encIntShares (c.first c.share)
  | .max t B c => encInit ⟨if t then 5#32 else 6#32, BitVec.ofNat 32 c.n, BitVec.ofNat 32 B⟩ ++
      encMaxShares (c.first fun i => (List.range (B + 1)).map (c.share i))

/-- The bytes sent to server 1. -/
def Query.bytes1 (nbits : ℕ) : (q : Query) → q.Val → q.Rand → Bytes
  | .bitSum c, v, _ => encInit ⟨1#32, BitVec.ofNat 32 c.n, 0⟩ ++ encBitShares (c.second fun i => (clientBit (v i) (c.share i)).2)
  | .intSum c, v, _ => encInit ⟨2#32, BitVec.ofNat 32 c.n, 0⟩ ++ encIntShares (c.second fun i => (clientInt nbits (v i) (c.share i)).2.2)
  | .xor t c, v, r => encInit ⟨if t then 3#32 else 4#32, BitVec.ofNat 32 c.n, 0⟩ ++
      encIntShares (c.second fun i => (clientXor t (v i) (r i) (c.share i)).2)
  | .max t B c, v, r => encInit ⟨if t then 5#32 else 6#32, BitVec.ofNat 32 c.n, BitVec.ofNat 32 B⟩ ++
      encMaxShares (c.second fun i => (clientMax t B (v i) (wordAt (r i)) (c.share i)).2)

/-- The clients are as described, and the batch has a size the servers can hold. -/
def Query.Fit (nbits : ℕ) : (q : Query) → q.Val → Prop
  | .bitSum c, _ => c.Ok
  | .intSum c, _ => c.Ok ∧ nbits < 64
  | .xor _ c, _ => c.Ok
  | .max _ B c, v => c.Ok ∧ B + 1 < 2 ^ 32 ∧ c.n * (B + 1) < 2 ^ 32 ∧ ∀ i, v i ≤ B

/-- Specification: the number of clients with a 1, and the sum of the low `nbits` bits of the values. -/
def countTrue {n : ℕ} (v : Fin n → Bool) : ℕ := (Finset.univ.filter fun i => v i = true).card
def sumBelow {n : ℕ} (nbits : ℕ) (v : Fin n → U64) : ℕ := ∑ i, (v i).toNat % 2 ^ nbits

/-- Specification: the answers are the same. -/
def Query.SameAnswer (nbits : ℕ) : (q : Query) → q.Val → q.Val → Prop
  | .bitSum _, v, v' => countTrue v' = countTrue v
  | .intSum _, v, v' => sumBelow nbits v' % 2 ^ 64 = sumBelow nbits v % 2 ^ 64
  | .xor t _, v, v' => (∀ i, v i = t) ↔ ∀ i, v' i = t
  | .max t _ _, v, v' => ∃ M, IsExtreme t v M ∧ IsExtreme t v' M

/-- MAX and MIN end: not all columns cancel (C39). -/
def Query.Ends : (q : Query) → q.Val → q.Rand → Prop
  | .bitSum _, _, _ | .intSum _, _, _ | .xor _ _, _, _ => True
  | .max t B c, v, r => ∃ j ≤ B, maxCol (c.first fun i => (clientMax t B (v i) (wordAt (r i)) (c.share i)).1)
      (c.second fun i => (clientMax t B (v i) (wordAt (r i)) (c.share i)).2) j ≠ 0#64

section Crowd

variable {σ α : Type} {c : Crowd σ} (h : c.Ok)

theorem Crowd.Ok.len0 (h : c.Ok) (f : Fin c.n → α) : (c.first f).length = c.n := by
  rw [Crowd.first, List.length_map, h.perm0.length_eq, List.length_finRange]

theorem Crowd.Ok.len1 (h : c.Ok) (f : Fin c.n → α) : (c.second f).length = c.n := by
  rw [Crowd.second, List.length_map, h.perm1.length_eq, List.length_finRange]

theorem Crowd.Ok.keyed0 (h : c.Ok) (f : Fin c.n → α) : Keyed (c.first f) := by
  intro e he
  obtain ⟨i, -, rfl⟩ := List.mem_map.1 he
  exact h.keys i

theorem Crowd.Ok.keyed1 (h : c.Ok) (f : Fin c.n → α) : Keyed (c.second f) := by
  intro e he
  obtain ⟨i, -, rfl⟩ := List.mem_map.1 he
  exact h.keys i

theorem Crowd.Ok.both (h : c.Ok) (f g : Fin c.n → α) :
    (∀ i, firstOf (fun _ => true) (c.first f) (c.pk i) = some (f i) ∧ firstOf (fun _ => true) (c.second g) (c.pk i) = some (g i)) ∧
      bothKeys (fun _ => true) (c.first f) (c.second g) = Finset.univ.image c.pk := by
  obtain ⟨h1, h2⟩ := bothKeys_honest (List.finRange c.n) c.pk f g ((List.nodup_finRange _).map h.distinct) (c.first f) (c.second g)
    (h.perm0.map _) (h.perm1.map _)
  refine ⟨fun i => h1 i (List.mem_finRange i), h2.trans ?_⟩
  ext k
  simp

theorem firstOf_all {ok : α → Bool} {subs : List (Bytes × α)} (h : ∀ e ∈ subs, ok e.2 = true) (k : Bytes) :
    firstOf ok subs k = firstOf (fun _ => true) subs k := by
  unfold firstOf
  congr 1
  induction subs with
  | nil => rfl
  | cons e subs ih =>
    rw [List.find?_cons, List.find?_cons, h e List.mem_cons_self, ih fun e he => h e (List.mem_cons_of_mem _ he)]

theorem admit_all {ok : α → Bool} {subs : List (Bytes × α)} (h : ∀ e ∈ subs, ok e.2 = true) (m : Map α) :
    admit ok subs m = admit (fun _ => true) subs m := by
  induction subs generalizing m with
  | nil => rfl
  | cons e subs ih =>
    have := h e List.mem_cons_self
    simp only [admit, this, ih fun e he => h e (List.mem_cons_of_mem _ he)]

/-- The keys are announced in the same order whatever the values. -/
theorem Crowd.announced {ord : Map α → Map α} (hby : ByKeys ord) (f g : Fin c.n → α) :
    (ord (admit (fun _ => true) (c.second f) [])).keys = (ord (admit (fun _ => true) (c.second g) [])).keys :=
  hby _ _ (admit_keys _ _ _ _ (by simp [Crowd.second, List.map_map, Function.comp_def]) rfl)

end Crowd

theorem bitCount_crowd {c : Crowd Bool} (h : c.Ok) (v : Fin c.n → Bool) :
    bitCount (c.first fun i => (clientBit (v i) (c.share i)).1) (c.second fun i => (clientBit (v i) (c.share i)).2) =
      countTrue v := by
  obtain ⟨hf, hb⟩ := h.both (fun i => (clientBit (v i) (c.share i)).1) fun i => (clientBit (v i) (c.share i)).2
  rw [bitCount, countTrue, hb, Finset.filter_image, Finset.card_image_of_injective _ h.distinct]
  congr 1
  ext i
  simp only [Finset.mem_filter, Finset.mem_univ, true_and]
  rw [(hf i).1, (hf i).2]
  cases hv : v i <;> cases hs : c.share i <;> simp [clientBit]

theorem mod_shl_toNat {nbits : ℕ} (hn : nbits < 64) (x : U64) : (x % (1#64 <<< nbits)).toNat = x.toNat % 2 ^ nbits := by
  rw [BitVec.toNat_umod, shl_toNat hn]

theorem clientInt_below {nbits : ℕ} (hn : nbits < 64) (v s : U64) :
    belowBits nbits (clientInt nbits v s).2.1 = true ∧ belowBits nbits (clientInt nbits v s).2.2 = true := by
  have hp : 0 < 2 ^ nbits := by positivity
  have h1 : ((v % (1#64 <<< nbits)).toNat) < 2 ^ nbits := by rw [mod_shl_toNat hn]; exact Nat.mod_lt _ hp
  have h2 : ((s % (1#64 <<< nbits)).toNat) < 2 ^ nbits := by rw [mod_shl_toNat hn]; exact Nat.mod_lt _ hp
  refine ⟨decide_eq_true h2, decide_eq_true ?_⟩
  rw [clientInt, BitVec.toNat_xor]
  exact Nat.xor_lt_two_pow h2 h1

theorem intTotal_crowd {nbits : ℕ} (hn : nbits < 64) {c : Crowd U64} (h : c.Ok) (v : Fin c.n → U64) :
    intTotal nbits (c.first fun i => (clientInt nbits (v i) (c.share i)).2.1) (c.second fun i => (clientInt nbits (v i) (c.share i)).2.2) =
      sumBelow nbits v := by
  obtain ⟨hf, hb⟩ := h.both (fun i => (clientInt nbits (v i) (c.share i)).2.1) fun i => (clientInt nbits (v i) (c.share i)).2.2
  have h0 : ∀ k, firstOf (belowBits nbits) (c.first fun i => (clientInt nbits (v i) (c.share i)).2.1) k =
      firstOf (fun _ => true) (c.first fun i => (clientInt nbits (v i) (c.share i)).2.1) k := firstOf_all (by
    intro e he
    obtain ⟨i, -, rfl⟩ := List.mem_map.1 he
    exact (clientInt_below hn (v i) _).1)
  have h1 : ∀ k, firstOf (belowBits nbits) (c.second fun i => (clientInt nbits (v i) (c.share i)).2.2) k =
      firstOf (fun _ => true) (c.second fun i => (clientInt nbits (v i) (c.share i)).2.2) k := firstOf_all (by
    intro e he
    obtain ⟨i, -, rfl⟩ := List.mem_map.1 he
    exact (clientInt_below hn (v i) _).2)
  have hb' : bothKeys (belowBits nbits) (c.first fun i => (clientInt nbits (v i) (c.share i)).2.1)
      (c.second fun i => (clientInt nbits (v i) (c.share i)).2.2) = Finset.univ.image c.pk := by
    rw [← hb]
    unfold bothKeys
    simp only [h0, h1]
  rw [intTotal, sumBelow, hb', Finset.sum_image (fun i _ j _ e => h.distinct e)]
  refine Finset.sum_congr rfl fun i _ => ?_
  rw [intTerm, h0, h1, (hf i).1, (hf i).2]
  simp only [Option.getD_some, clientInt, ← BitVec.xor_assoc, BitVec.xor_self, BitVec.zero_xor, mod_shl_toNat hn]

theorem xorAgg_crowd (isAnd : Bool) {c : Crowd U64} (h : c.Ok) (v : Fin c.n → Bool) (r : Fin c.n → U64) :
    xorAgg (c.first fun i => (clientXor isAnd (v i) (r i) (c.share i)).1) (c.second fun i => (clientXor isAnd (v i) (r i) (c.share i)).2) =
      xorSet (Finset.univ.filter fun i => (v i != isAnd) = true) r := by
  let cs := (List.finRange c.n).map fun i => (⟨c.pk i, v i, r i, c.share i⟩ : XorClient)
  have hd : (cs.map (·.pk)).Nodup := by
    simp only [cs, List.map_map]
    exact (List.nodup_finRange _).map h.distinct
  rw [xorAgg_honest isAnd cs hd _ _ (by simp only [cs, List.map_map]; exact h.perm0.map _) (by simp only [cs, List.map_map]; exact h.perm1.map _),
    xorSet_filter, xorRands]
  simp only [cs, List.filter_map, List.map_map]
  rfl

theorem honestMax_crowd (isMax : Bool) {B : ℕ} {c : Crowd (ℕ → U64)} (h : c.Ok) (v : Fin c.n → ℕ) (hv : ∀ i, v i ≤ B) (r : Fin c.n → Fin (B + 1) → U64) :
    HonestMax isMax B ((List.finRange c.n).map fun i => ⟨c.pk i, v i, wordAt (r i), c.share i⟩)
      (c.first fun i => (clientMax isMax B (v i) (wordAt (r i)) (c.share i)).1)
      (c.second fun i => (clientMax isMax B (v i) (wordAt (r i)) (c.share i)).2) := by
  refine ⟨?_, ?_, ?_, ?_, ?_⟩
  · simp only [List.map_map]
    exact (List.nodup_finRange _).map h.distinct
  · intro c' hc
    obtain ⟨i, -, rfl⟩ := List.mem_map.1 hc
    exact h.keys i
  · intro c' hc
    obtain ⟨i, -, rfl⟩ := List.mem_map.1 hc
    exact hv i
  · simp only [List.map_map]; exact h.perm0.map _
  · simp only [List.map_map]; exact h.perm1.map _

theorem maxCol_crowd (isMax : Bool) {B : ℕ} {c : Crowd (ℕ → U64)} (h : c.Ok) (v : Fin c.n → ℕ) (hv : ∀ i, v i ≤ B) (r : Fin c.n → Fin (B + 1) → U64)
    (j : Fin (B + 1)) : maxCol (c.first fun i => (clientMax isMax B (v i) (wordAt (r i)) (c.share i)).1)
      (c.second fun i => (clientMax isMax B (v i) (wordAt (r i)) (c.share i)).2) j =
        xorSet (Finset.univ.filter fun i => decide ((j : ℕ) ≤ maxPos isMax B (v i)) = true) fun i => r i j := by
  rw [(honestMax_crowd isMax h v hv r).col j (by omega), xorSet_filter, colRands]
  simp only [List.filter_map, List.map_map]
  congr 1
  refine List.map_congr_left fun i _ => ?_
  exact dif_pos j.2

theorem reach_nonempty {isMax : Bool} {B n : ℕ} {v : Fin n → ℕ} {M : ℕ} (hM : IsExtreme isMax v M) (j : ℕ) :
    (Finset.univ.filter fun i => decide (j ≤ maxPos isMax B (v i)) = true).Nonempty ↔ j ≤ maxPos isMax B M := by
  obtain ⟨⟨i0, hi0⟩, hx⟩ := hM
  simp only [Finset.Nonempty, Finset.mem_filter, Finset.mem_univ, true_and, decide_eq_true_eq]
  constructor
  · rintro ⟨i, hi⟩
    have := hx i
    unfold maxPos at hi ⊢
    cases isMax <;> simp at this hi ⊢ <;> omega
  · intro h
    exact ⟨i0, by rw [hi0]; exact h⟩

/-- The random words can be rearranged so that the aggregate is the same. -/
theorem Query.rearranged {nbits : ℕ} (q : Query) {v v' : q.Val} (hf : q.Fit nbits v) (hf' : q.Fit nbits v') (h : q.SameAnswer nbits v v') :
    ∃ e : q.Rand ≃ q.Rand, ∀ r, (∀ ord : {α : Type} → Map α → Map α, (∀ α, ByKeys (ord (α := α))) →
      (q.batch nbits v r).Same0 nbits ord ord (q.batch nbits v' (e r))) ∧ (q.Ends v r → q.Ends v' (e r)) := by
  cases q with
  | bitSum c =>
    refine ⟨Equiv.refl _, fun r => ⟨fun ord hby => ⟨rfl, Crowd.announced (hby _) _ _, ?_⟩, fun _ => trivial⟩⟩
    have h1 := bitCount_crowd hf v
    have h2 := bitCount_crowd hf v'
    exact h2.trans (h.trans h1.symm)
  | intSum c =>
    refine ⟨Equiv.refl _, fun r => ⟨fun ord hby => ⟨rfl, ?_, ?_⟩, fun _ => trivial⟩⟩
    · rw [admit_all (ok := belowBits nbits), admit_all (ok := belowBits nbits)]
      · exact Crowd.announced (hby _) _ _
      · intro e he
        obtain ⟨i, -, rfl⟩ := List.mem_map.1 he
        exact (clientInt_below hf.2 (v i) _).2
      · intro e he
        obtain ⟨i, -, rfl⟩ := List.mem_map.1 he
        exact (clientInt_below hf.2 (v' i) _).2
    · have h1 := intTotal_crowd hf.2 hf.1 v
      have h2 := intTotal_crowd hf.2 hf.1 v'
      exact (congrArg (· % 2 ^ 64) h2).trans (h.trans (congrArg (· % 2 ^ 64) h1).symm)
  | xor t c =>
    have hne : (Finset.univ.filter fun i => (v i != t) = true).Nonempty ↔ (Finset.univ.filter fun i => (v' i != t) = true).Nonempty := by
      have : ∀ v : Fin c.n → Bool, (Finset.univ.filter fun i => (v i != t) = true).Nonempty ↔ ¬ ∀ i, v i = t := by
        intro v
        simp [Finset.Nonempty]
      exact (this v).trans ((not_congr h).trans (this v').symm)
    obtain ⟨e, he⟩ := xorSet_equiv _ _ hne
    refine ⟨e, fun r => ⟨fun ord hby => ⟨rfl, Crowd.announced (hby _) _ _, ?_⟩, fun _ => trivial⟩⟩
    exact (xorAgg_crowd t hf v' (e r)).trans ((he r).symm.trans (xorAgg_crowd t hf v r).symm)
  | max t B c =>
    obtain ⟨M, hM, hM'⟩ := h
    have hset : ∀ j : ℕ, (Finset.univ.filter fun i => decide (j ≤ maxPos t B (v i)) = true).Nonempty ↔
        (Finset.univ.filter fun i => decide (j ≤ maxPos t B (v' i)) = true).Nonempty := fun j => by
      rw [reach_nonempty hM, reach_nonempty hM']
    choose ej hej using fun j : Fin (B + 1) => xorSet_equiv _ _ (hset j)
    let e : (Fin c.n → Fin (B + 1) → U64) ≃ (Fin c.n → Fin (B + 1) → U64) :=
      (Equiv.piComm fun _ _ => U64).trans ((Equiv.piCongrRight ej).trans (Equiv.piComm fun _ _ => U64))
    have he : ∀ r (j : Fin (B + 1)), (fun i => e r i j) = ej j fun i => r i j := fun r j => rfl
    have hcol : ∀ (r : Fin c.n → Fin (B + 1) → U64) (j : ℕ), j ≤ B → maxCol (c.first fun i => (clientMax t B (v' i) (wordAt (e r i)) (c.share i)).1)
        (c.second fun i => (clientMax t B (v' i) (wordAt (e r i)) (c.share i)).2) j =
        maxCol (c.first fun i => (clientMax t B (v i) (wordAt (r i)) (c.share i)).1)
          (c.second fun i => (clientMax t B (v i) (wordAt (r i)) (c.share i)).2) j := by
      intro r j hj
      have a := maxCol_crowd t hf.1 v' hf'.2.2.2 (e r) ⟨j, by omega⟩
      have b := maxCol_crowd t hf.1 v hf.2.2.2 r ⟨j, by omega⟩
      simp only at a b
      rw [a, b, he]
      exact (hej ⟨j, by omega⟩ fun i => r i ⟨j, by omega⟩).symm
    refine ⟨e, fun r => ⟨fun ord hby => ⟨rfl, rfl, Crowd.announced (hby _) _ _, hcol r⟩, ?_⟩⟩
    rintro ⟨j, hj, hne⟩
    exact ⟨j, hj, fun h0 => hne ((hcol r j hj).symm.trans h0)⟩

/-- An honest query meets the requirements of C47. -/
theorem Query.round {nbits : ℕ} (q : Query) {v : q.Val} (r : q.Rand) (hf : q.Fit nbits v) (he : q.Ends v r) (e0 e1 : Env)
    (ho : ∀ α : Type, IsOrder (e1.ord (α := α))) (hd : Canon e1.draw intModulus) :
    RoundOk nbits (q.batch nbits v r, { e0 with stream := q.bytes0 nbits }, { e1 with stream := q.bytes1 nbits v r }) := by
  refine ⟨?_, ?_, ho, hd⟩
  · cases q with
    | bitSum c =>
      refine ⟨[], [], ?_, ?_⟩
      · rw [List.append_nil, hf.len0]; exact ⟨hf.small, 0, by simp, rfl⟩
      · rw [List.append_nil, hf.len1]; exact ⟨hf.small, 0, by simp, rfl⟩
    | intSum c =>
      refine ⟨[], [], ?_, ?_⟩
      · rw [List.append_nil, hf.1.len0]; exact ⟨hf.1.small, 0, by simp, rfl⟩
      · rw [List.append_nil, hf.1.len1]; exact ⟨hf.1.small, 0, by simp, rfl⟩
    | xor t c =>
      refine ⟨[], [], ?_, ?_⟩
      · rw [List.append_nil, hf.len0]; exact ⟨hf.small, 0, by simp, rfl⟩
      · rw [List.append_nil, hf.len1]; exact ⟨hf.small, 0, by simp, rfl⟩
    | max t B c =>
      have hB : ∀ b, some B = some b → (BitVec.ofNat 32 B).toNat = b := by
        intro b hb
        cases hb
        rw [BitVec.toNat_ofNat, Nat.mod_eq_of_lt (lt_trans (Nat.lt_succ_self B) hf.2.1)]
      refine ⟨[], [], ?_, ?_⟩
      · rw [List.append_nil, hf.1.len0]; exact ⟨hf.1.small, BitVec.ofNat 32 B, hB, rfl⟩
      · rw [List.append_nil, hf.1.len1]; exact ⟨hf.1.small, BitVec.ofNat 32 B, hB, rfl⟩
  · cases q with
    | bitSum c => exact ⟨hf.keyed0 _, hf.keyed1 _⟩
    | intSum c => exact ⟨hf.1.keyed0 _, hf.1.keyed1 _, hf.2⟩
    | xor t c => exact ⟨hf.keyed0 _, hf.keyed1 _⟩
    | max t B c =>
      obtain ⟨hc, hB, hs, hv⟩ := hf
      have hm := honestMax_crowd t hc v hv r
      exact ⟨hm.keyed0, hm.keyed1, hm.rows0, hm.rows1, hB, by rw [hc.len0]; exact hs, by rw [hc.len1]; exact hs, .inr he⟩

/-- C78 for server 0 and honest clients: two sessions of queries whose answers are the same look the same to server 0 from beginning to end, up
to a rearrangement of the random words of the clients, query by query, one to one. The words are uniform, so the view of the whole
session has the same distribution: server 0 learns the answers, and nothing more however many queries are made. -/
theorem C78_server0_honest (c : StoreCfg) {g0 g1 : StoreRng} (hg : GoodRng intModulus g0) {nbits : ℕ} (coef : ℕ → ℤ) {k : ℕ} (q : Fin k → Query)
    (v v' : ∀ i, (q i).Val) (hf : ∀ i, (q i).Fit nbits (v i)) (hf' : ∀ i, (q i).Fit nbits (v' i))
    (hsame : ∀ i, (q i).SameAnswer nbits (v i) (v' i)) (e0 e1 : Fin k → Env) (ho : ∀ i (α : Type), IsOrder ((e1 i).ord (α := α)))
    (hby : ∀ i (α : Type), ByKeys ((e1 i).ord (α := α))) (hd : ∀ i, Canon (e1 i).draw intModulus) {y : Shared} {s0 s1 : Srv} (hs : InStep y s0 s1) :
    ∃ e : ∀ i, (q i).Rand ≃ (q i).Rand, ∀ r : ∀ i, (q i).Rand, (∀ i, (q i).Ends (v i) (r i)) → ∃ w,
      Sees0 (session false c g0 nbits coef ((List.finRange k).map fun i => { e0 i with stream := (q i).bytes0 nbits }) s0)
        (session true c g1 nbits coef ((List.finRange k).map fun i => { e1 i with stream := (q i).bytes1 nbits (v i) (r i) }) s1) w ∧
      Sees0 (session false c g0 nbits coef ((List.finRange k).map fun i => { e0 i with stream := (q i).bytes0 nbits }) s0)
        (session true c g1 nbits coef ((List.finRange k).map fun i => { e1 i with stream := (q i).bytes1 nbits (v' i) (e i (r i)) }) s1) w := by
  choose e he using fun i => (q i).rearranged (hf i) (hf' i) (hsame i)
  refine ⟨e, fun r hr => ?_⟩
  have := C78_server0 c (g1 := g1) hg (nbits := nbits) coef ((List.finRange k).map fun i => (⟨(q i).batch nbits (v i) (r i), (q i).batch nbits (v' i) (e i (r i)),
    { e0 i with stream := (q i).bytes0 nbits }, { e1 i with stream := (q i).bytes1 nbits (v i) (r i) },
    { e1 i with stream := (q i).bytes1 nbits (v' i) (e i (r i)) }⟩ : Twin0)) (by
      intro t ht
      obtain ⟨i, -, rfl⟩ := List.mem_map.1 ht
      exact ⟨(q i).round (r i) (hf i) (hr i) (e0 i) (e1 i) (ho i) (hd i), (q i).round (e i (r i)) (hf' i) ((he i (r i)).2 (hr i)) (e0 i) (e1 i) (ho i) (hd i),
        rfl, (he i (r i)).1 (e1 i).ord (hby i)⟩) hs
  simpa only [List.map_map, Function.comp_def] using this

/-! ## Examples -/

/-- Two clients. -/
def twoClients {σ : Type} (f : Fin 2 → σ) : Crowd σ := ⟨2, ![keyA, keyB], f, [0, 1], [1, 0]⟩

theorem twoClients_ok {σ : Type} (f : Fin 2 → σ) : (twoClients f).Ok := by
  refine ⟨by show 2 < 2 ^ 32; norm_num, ?_, ?_, ?_, ?_⟩
  · show Function.Injective ![keyA, keyB]
    decide
  · show ∀ i : Fin 2, (![keyA, keyB] i).length = pkLength
    decide
  · show [(0 : Fin 2), 1].Perm (List.finRange 2)
    decide
  · show [(1 : Fin 2), 0].Perm (List.finRange 2)
    decide

/-- The clients swap their bits. -/
example : (Query.bitSum (twoClients ![true, true])).Fit 4 ![true, false] ∧
    (Query.bitSum (twoClients ![true, true])).SameAnswer 4 ![true, false] ![false, true] := ⟨twoClients_ok _, by
    show countTrue ![false, true] = countTrue ![true, false]; decide⟩

/-- Other values with the same sum. -/
example : (Query.intSum (twoClients ![7, 9])).Fit 4 ![3, 12] ∧ (Query.intSum (twoClients ![7, 9])).SameAnswer 4 ![3, 12] ![10, 5] :=
  ⟨⟨twoClients_ok _, by norm_num⟩, by show sumBelow 4 ![10, 5] % 2 ^ 64 = sumBelow 4 ![3, 12] % 2 ^ 64; decide⟩

/-- One client with a 0, or two: the AND is the same. -/
example : (Query.xor true (twoClients ![7, 9])).Fit 4 ![false, true] ∧ (Query.xor true (twoClients ![7, 9])).SameAnswer 4 ![false, true] ![false, false] :=
  ⟨twoClients_ok _, by show (∀ i, ![false, true] i = true) ↔ ∀ i, ![false, false] i = true; decide⟩

/-- The maximum of 3 and 1 is that of 2 and 3. -/
example : (Query.max true 3 (twoClients fun _ _ => 5)).Fit 4 ![3, 1] ∧ (Query.max true 3 (twoClients fun _ _ => 5)).SameAnswer 4 ![3, 1] ![2, 3] :=
  ⟨⟨twoClients_ok _, by norm_num, by show 2 * 4 < 2 ^ 32; norm_num, by show ∀ i, ![3, 1] i ≤ 3; decide⟩,
    show ∃ M, IsExtreme true ![3, 1] M ∧ IsExtreme true ![2, 3] M from ⟨3, ⟨by decide, by decide⟩, by decide, by decide⟩⟩

end Verif

import Verif.LemmasMemSnip

/-! # Memory of VAR, STDDEV and LINREG -/

namespace Verif

variable {S : ℕ} {R R' R₀ : Multiset Block} {α : Type}

/-! ## Intake -/

/-- The keys after an intake. -/
def KeysFrom (subs : List (Bytes × Bool)) (m m' : Map α) : Prop :=
  (Map.keys m').Nodup ∧ ∀ k, k ∈ Map.keys m' ↔ k ∈ Map.keys m ∨ (k, true) ∈ subs

theorem keysFrom_usable {subs : List (Bytes × Bool)} {m : Map α} (h : KeysFrom subs [] m) : (Map.keys m).Perm (usable subs) := by
  refine (List.perm_ext_iff_of_nodup h.1 (List.nodup_dedup _)).2 fun k => ?_
  rw [h.2]
  simp

theorem keysFrom_nil {m : Map α} (h : (Map.keys m).Nodup) : KeysFrom [] m m := ⟨h, by simp⟩

theorem keysFrom_skip {k : Bytes} {ok : Bool} {subs : List (Bytes × Bool)} {m m' : Map α} (hc : ((m.lookup k).isSome || !ok) = true)
    (h : KeysFrom subs m m') : KeysFrom ((k, ok) :: subs) m m' := by
  refine ⟨h.1, fun k' => ?_⟩
  rw [h.2]
  constructor
  · rintro (h | h)
    · exact .inl h
    · exact .inr (by simp [h])
  · rintro (h | h)
    · exact .inl h
    · rcases List.mem_cons.1 h with h | h
      · obtain ⟨rfl, rfl⟩ := Prod.mk.inj h
        simp only [Bool.not_true, Bool.or_false] at hc
        exact .inl ((lookup_isSome_iff m k').1 hc)
      · exact .inr h

theorem keysFrom_add {k : Bytes} {ok : Bool} {a : α} {subs : List (Bytes × Bool)} {m m' : Map α} (hc : ¬ ((m.lookup k).isSome || !ok) = true)
    (h : KeysFrom subs (m ++ [(k, a)]) m') : KeysFrom ((k, ok) :: subs) m m' := by
  refine ⟨h.1, fun k' => ?_⟩
  rw [h.2]
  have hok : ok = true := by
    cases ok
    · simp at hc
    · rfl
  subst hok
  simp only [Map.keys, List.map_append, List.map_cons, List.map_nil, List.mem_append, List.mem_cons, Prod.mk.injEq, and_true]
  tauto

theorem keys_add_nodup {k : Bytes} {ok : Bool} {a : α} {m : Map α} (hn : (Map.keys m).Nodup) (hc : ¬ ((m.lookup k).isSome || !ok) = true) :
    (Map.keys (m ++ [(k, a)])).Nodup := by
  have h1 : k ∉ Map.keys m := fun hk => hc (by simp [(lookup_isSome_iff m k).2 hk])
  simp only [Map.keys, List.map_append, List.map_cons, List.map_nil]
  exact List.nodup_append.2 ⟨hn, by simp, by
    intro a ha b hb
    rw [List.mem_singleton] at hb
    rintro rfl
    exact h1 (hb ▸ ha)⟩

/-- The blocks of a packet. -/
def obj (o : List Block) : Multiset Block := ↑o

theorem tri_varIntake : ∀ (subs : List (Bytes × Bool)) (m : Map (List Block)) (_ : (Map.keys m).Nodup) (_ : ∀ e ∈ m, bytesOf (obj e.2) = 112),
    Tri S (ownsMap obj m + R) (varIntakeMem subs m) fun m' R' => KeysFrom subs m m' ∧ (∀ e ∈ m', bytesOf (obj e.2) = 112) ∧ R' = ownsMap obj m' + R
  | [], m, hn, hb => Tri.pure ⟨keysFrom_nil hn, hb, rfl⟩
  | (k, ok) :: subs, m, hn, hb => by
    unfold varIntakeMem
    refine Tri.bind (Tri.newObj _) ?_
    rintro p _ ⟨h1, rfl⟩
    split
    · rename_i hc
      refine Tri.bind (Tri.deleteObj (by takes)) ?_
      rintro _ _ rfl
      refine (tri_varIntake subs m hn hb).conseq ?_
      rintro m' _ ⟨h2, h3, rfl⟩
      exact ⟨keysFrom_skip hc h2, h3, rfl⟩
    · rename_i hc
      refine Tri.pre (R' := ownsMap obj (m ++ [(k, p)]) + R) ?_ ((tri_varIntake subs _ (keys_add_nodup hn hc) ?_).conseq ?_)
      · simp only [ownsMap, List.map_append, List.sum_append, List.map_cons, List.map_nil, List.sum_cons, List.sum_nil, obj]
        abel
      · intro e he
        rcases List.mem_append.1 he with he | he
        · exact hb e he
        · rw [List.mem_singleton] at he
          subst he
          exact (bytesOf_shape h1).trans rfl
      · rintro m' _ ⟨h2, h3, rfl⟩
        exact ⟨keysFrom_add hc h2, h3, rfl⟩

/-! ## VAR and STDDEV -/

theorem mem_owns {l : List (List Block)} {o : List Block} (ho : o ∈ l) {b : Block} (hb : b ∈ o) : b ∈ owns l := by
  induction l with
  | nil => cases ho
  | cons a l ih =>
    rw [owns_cons, Multiset.mem_add]
    rcases List.mem_cons.1 ho with rfl | ho
    · exact .inl hb
    · exact .inr (ih ho)

theorem tri_varRows (shape : ℕ → List (Way × ℕ)) (sv : Bool) (nbits : ℕ) {packets : List (List Block)} {shares : Block} (k : Keep) (hne : packets ≠ [])
    (hsh : shares ∈ R) :
    Tri S (owns packets + (k.owned + R)) (varRowsMem shape sv nbits packets shares k) fun r R' =>
      r.1.way = .raw ∧ ∃ L, bytesOf L = 24 * packets.length ∧ R' = {r.1} + (r.2.owned + (L + R)) := by
  unfold varRowsMem
  refine Tri.pre (R' := (packets.map fun _ => (0 : Multiset Block)).sum + (owns packets + (k.owned + R))) (by simp)
    (Tri.bind (Tri.each (out := fun o : List Block => (↑o : Multiset Block)) (P := fun _ _ => True) ?_) ?_)
  · intro p hp R1 hR1
    rw [zero_add]
    refine (Tri.newObj _).conseq ?_
    rintro o _ ⟨-, rfl⟩
    exact ⟨trivial, rfl⟩
  rintro circuits _ ⟨h1, rfl⟩
  have hl := length_of_forall₂ h1
  refine Tri.bind (Tri.touch (by simp [hsh])) ?_
  rintro _ _ rfl
  refine Tri.bind (tri_shareConvert _ _ _ _) ?_
  rintro sp _ ⟨h2, L, h3, rfl⟩
  refine Tri.pre (R' := k.owned + ({sp} + (L + (owns circuits + (owns packets + R))))) (by simp only [owns]; abel)
    (Tri.bind (tri_validateSnips shape 2 1 k hne hl ?_ ?_) ?_)
  · intro o ho b hb
    simp [mem_owns ho hb]
  · intro o ho b hb
    simp [mem_owns ho hb]
  rintro ⟨sn, k'⟩ _ ⟨h4, -, rfl⟩
  dsimp only at *
  refine Tri.bind (tri_deletePairs (R₀ := {sn} + ({sp} + (k'.owned + (L + R)))) hl (by abel)) ?_
  rintro _ _ rfl
  rel
  exact Tri.pure ⟨h2, L, by rw [h3]; omega, rfl⟩

theorem clean_mock (shape : List (Way × ℕ)) {β : Type} {m : Mem β} {Q : β → Multiset Block → Prop} (hm : Tri S R m Q) :
    Tri S R (do
      let mock ← Verif.newObj shape
      Verif.deleteObj mock
      m) Q := by
  refine Tri.bind (Tri.newObj _) ?_
  rintro o _ ⟨-, rfl⟩
  refine Tri.bind (Tri.deleteObj (by takes)) ?_
  rintro _ _ rfl
  exact hm

theorem owns_eq_ownsMap (m : Map (List Block)) : owns (m.map (·.2)) = ownsMap obj m := by
  simp only [owns, ownsMap, List.map_map]
  rfl

theorem tri_var1 (shape : ℕ → List (Way × ℕ)) (nbits : ℕ) {subs : List (Bytes × Bool)} {ord : Map (List Block) → Map (List Block)} (k : Keep)
    (hord : ∀ m, (ord m).Perm m) (hne : usable subs ≠ []) :
    Tri S (k.owned + R) (var1Mem shape nbits subs ord k) fun k' R' => ∃ L, bytesOf L = 24 * (usable subs).length ∧ R' = k'.owned + (L + R) := by
  unfold var1Mem varCheckBlocks
  refine clean_mock _ ?_
  refine Tri.pre (R' := ownsMap obj [] + (k.owned + R)) (by simp [ownsMap]) (Tri.bind (tri_varIntake subs [] (by simp [Map.keys]) (by simp)) ?_)
  rintro m _ ⟨h1, -, rfl⟩
  have hlen : m.length = (usable subs).length := by simpa [Map.keys] using (keysFrom_usable h1).length_eq
  have hp : (((ord m).map (·.2)).length) = (usable subs).length := by rw [List.length_map, (hord m).length_eq, hlen]
  have hpne : (ord m).map (·.2) ≠ [] := by
    intro e
    rw [e] at hp
    exact hne (List.length_eq_zero_iff.1 hp.symm)
  dsimp only
  new sh h2
  new pa h3
  new pk h4
  new ci h5
  refine Tri.pre (R' := owns ((ord m).map (·.2)) + (k.owned + ({ci} + ({pk} + ({pa} + ({sh} + R)))))) ?_
    (Tri.bind (tri_varRows shape true nbits k hpne (by simp)) ?_)
  · rw [owns_eq_ownsMap, ownsMap_perm (hord m)]
    abel
  rintro ⟨sp, k'⟩ _ ⟨h6, L, h7, rfl⟩
  dsimp only at *
  new va h8
  refine (clean_bools _).run fun _ => ?_
  rel
  rel
  rel
  rel
  new b h9
  rel
  rel
  rel
  exact Tri.pure ⟨L, by rw [h7, hp], rfl⟩

/-- The packets of distinct announced keys: those of the map and new ones; the others stay. -/
theorem tri_varPackets (m : Map (List Block)) (hn : (Map.keys m).Nodup) : ∀ (ks done : List Bytes) (_ : ks.Nodup) (_ : ∀ k ∈ ks, k ∉ done) (R : Multiset Block),
    Tri S (ownsMap obj (m.without done) + R) (varPacketsMem m ks) fun ps R' =>
      ps.length = ks.length ∧ R' = owns ps + (ownsMap obj (m.without (ks.reverse ++ done)) + R)
  | [], done, _, _, R => Tri.pure ⟨rfl, by simp [owns]⟩
  | k :: ks, done, hd, hk, R => by
    unfold varPacketsMem Verif.each
    have hd' := List.nodup_cons.1 hd
    have rest := tri_varPackets m hn ks (k :: done) hd'.2 fun k' hk' => by
      simp only [List.mem_cons, not_or]
      exact ⟨fun e => hd'.1 (e ▸ hk'), hk k' (by simp [hk'])⟩
    have step : ∀ p : List Block, Tri S (ownsMap obj (m.without (k :: done)) + (obj p + R)) (do
        let bs ← Verif.each ks fun k => (match m.lookup k with
          | some p => pure p
          | none => Verif.newObj (packetShape 1 2) : Mem (List Block))
        pure (p :: bs) : Mem (List (List Block))) fun ps R' =>
          ps.length = (k :: ks).length ∧ R' = owns ps + (ownsMap obj (m.without ((k :: ks).reverse ++ done)) + R) := by
      intro p
      refine Tri.bind (rest _) ?_
      rintro ps _ ⟨h1, rfl⟩
      refine Tri.pure ⟨by simp [h1], ?_⟩
      rw [owns_cons, List.reverse_cons, List.append_assoc, List.singleton_append]
      simp only [obj]
      abel
    beta_reduce
    cases hlk : m.lookup k with
    | some p =>
      refine Tri.bind (Tri.pure (Q := fun q R' => q = p ∧ R' = ownsMap obj (m.without done) + R) ⟨rfl, rfl⟩) ?_
      rintro _ _ ⟨rfl, rfl⟩
      refine Tri.pre ?_ (step _)
      rw [without_some hn hlk (hk k (by simp))]
      abel
    | none =>
      refine Tri.bind (Tri.newObj _) ?_
      rintro p _ ⟨-, rfl⟩
      refine Tri.pre ?_ (step p)
      rw [without_none hlk]
      simp only [obj]
      abel

theorem without_length {m : Map α} {ks : List Bytes} {us : List Bytes} (h : (Map.keys m).Perm us) :
    (m.without ks).length = (us.filter fun k => k ∉ ks).length := by
  have h1 : (m.without ks).length = ((Map.keys m).filter fun k => k ∉ ks).length := by
    simp only [Map.without, Map.keys, List.filter_map, List.length_map]
    rfl
  rw [h1]
  exact (h.filter _).length_eq

theorem without_reverse (m : Map α) (ks : List Bytes) : m.without (ks.reverse ++ []) = m.without ks := by simp [Map.without]

theorem tri_var0 (shape : ℕ → List (Way × ℕ)) (nbits : ℕ) {subs : List (Bytes × Bool)} {ks : List Bytes} (k : Keep) (hks : ks.Nodup) (hne : ks ≠ []) :
    Tri S (k.owned + R) (var0Mem shape nbits subs ks k) fun k' R' =>
      ∃ L, bytesOf L = 24 * ks.length + ((usable subs).filter fun k => k ∉ ks).length * 112 ∧ R' = k'.owned + (L + R) := by
  unfold var0Mem varCheckBlocks
  refine clean_mock _ ?_
  refine Tri.pre (R' := ownsMap obj [] + (k.owned + R)) (by simp [ownsMap]) (Tri.bind (tri_varIntake subs [] (by simp [Map.keys]) (by simp)) ?_)
  rintro m _ ⟨h1, h1b, rfl⟩
  dsimp only
  new sh h2
  new pa h3
  new va h8
  new pk h4
  new ci h5
  refine Tri.pre (R' := ownsMap obj (m.without []) + (k.owned + ({ci} + ({pk} + ({va} + ({pa} + ({sh} + R))))))) (by rw [without_nil]; abel)
    (Tri.bind (tri_varPackets m h1.1 ks [] hks (by simp) _) ?_)
  rintro ps _ ⟨h6, rfl⟩
  rw [without_reverse]
  have hpne : ps ≠ [] := by
    rintro rfl
    exact hne (List.length_eq_zero_iff.1 h6.symm)
  refine Tri.pre (R' := owns ps + (k.owned + ({ci} + ({pk} + ({va} + ({pa} + ({sh} + (ownsMap obj (m.without ks) + R)))))))) (by abel)
    (Tri.bind (tri_varRows shape false nbits k hpne (by simp)) ?_)
  rintro ⟨sp, k'⟩ _ ⟨h9, L, h7, rfl⟩
  dsimp only at *
  refine (clean_bools _).run fun _ => ?_
  rel
  rel
  rel
  rel
  new b h10
  rel
  rel
  rel
  refine Tri.pure ⟨L + ownsMap obj (m.without ks), ?_, by abel⟩
  have h11 : ∀ e ∈ m.without ks, bytesOf (obj e.2) = 112 := fun e he => h1b e (List.mem_filter.1 he).1
  rw [bytesOf_add, h7, h6, bytesOf_ownsMap h11, without_length (keysFrom_usable h1)]

end Verif

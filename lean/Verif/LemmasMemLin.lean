import Verif.LemmasMemVar

/-! # Memory of LINREG -/

namespace Verif

variable {S : ℕ} {R R' R₀ : Multiset Block}

/-- The arrays of a row. -/
def LinEntry.arrays (r : LinEntry) : Multiset Block := {r.x} + ({r.x2} + {r.xy})

/-- The blocks of a row. -/
def LinEntry.own (r : LinEntry) : Multiset Block := r.arrays + ↑r.packet

/-- Bytes of the arrays of a row, and of its packet. -/
def arraysBytes (degree : ℕ) : ℕ := 8 * (2 * linXs degree + linQuad degree)
def packetBytes (degree N : ℕ) : ℕ := 88 + 8 * (linMuls degree + N)

/-- A row as the intake makes it. -/
def LinEntry.Made (degree N : ℕ) (r : LinEntry) : Prop :=
  r.x.way = .arr ∧ bytesOf r.own = arraysBytes degree + packetBytes degree N

theorem tri_linArrays (degree : ℕ) : Tri S R (linArraysMem degree) fun r R' =>
    r.1.way = .arr ∧ r.1.bytes + r.2.1.bytes + r.2.2.bytes = arraysBytes degree ∧ R' = {r.1} + ({r.2.1} + ({r.2.2} + R)) := by
  unfold linArraysMem
  refine Tri.bind (Tri.alloc _ _) ?_
  rintro x _ ⟨h1, h2, rfl⟩
  refine Tri.bind (Tri.alloc _ _) ?_
  rintro x2 _ ⟨h3, h4, rfl⟩
  refine Tri.bind (Tri.alloc _ _) ?_
  rintro xy _ ⟨h5, h6, rfl⟩
  exact Tri.pure ⟨h1, by simp only [h2, h4, h6, arraysBytes]; ring, by abel⟩

theorem bytesOf_packet {degree N : ℕ} {o : List Block} (h : o.map (fun b => (b.way, b.bytes)) = packetShape (linMuls degree) N) :
    bytesOf ↑o = packetBytes degree N := by
  rw [bytesOf_shape h]
  simp [packetShape, packetBytes]
  ring

theorem tri_linIntake (degree N : ℕ) : ∀ (subs : List (Bytes × Bool)) (m : Map LinEntry) (_ : (Map.keys m).Nodup) (_ : ∀ e ∈ m, e.2.Made degree N) (R : Multiset Block),
    Tri S (ownsMap LinEntry.own m + R) (linIntakeMem degree N subs m) fun m' R' =>
      KeysFrom subs m m' ∧ (∀ e ∈ m', e.2.Made degree N) ∧ m'.length ≤ m.length + subs.length ∧
        ∃ L, bytesOf L = (m.length + subs.length - m'.length) * arraysBytes degree ∧ R' = ownsMap LinEntry.own m' + (L + R)
  | [], m, hn, hb, R => Tri.pure ⟨keysFrom_nil hn, hb, le_rfl, 0, by simp [bytesOf_zero], by simp⟩
  | (k, ok) :: subs, m, hn, hb, R => by
    unfold linIntakeMem
    refine Tri.bind (tri_linArrays degree) ?_
    rintro ⟨x, x2, xy⟩ _ ⟨h1, h2, rfl⟩
    dsimp only at *
    refine Tri.bind (Tri.newObj _) ?_
    rintro p _ ⟨h3, rfl⟩
    split
    · rename_i hc
      refine Tri.bind (Tri.deleteObj (by takes)) ?_
      rintro _ _ rfl
      refine Tri.pre (R' := ownsMap LinEntry.own m + ({x} + ({x2} + {xy}) + R)) (by abel) ((tri_linIntake degree N subs m hn hb _).conseq ?_)
      rintro m' _ ⟨h4, h5, h6, L, h7, rfl⟩
      refine ⟨keysFrom_skip hc h4, h5, by simp only [List.length_cons]; omega, L + ({x} + ({x2} + {xy})), ?_, by abel⟩
      simp only [bytesOf_add, bytesOf_single, h7, List.length_cons]
      have : m.length + (subs.length + 1) - m'.length = (m.length + subs.length - m'.length) + 1 := by omega
      rw [this, Nat.add_mul, Nat.one_mul]
      omega
    · rename_i hc
      refine Tri.pre (R' := ownsMap LinEntry.own (m ++ [(k, ⟨x, x2, xy, p⟩)]) + R) ?_
        ((tri_linIntake degree N subs _ (keys_add_nodup hn hc) ?_ _).conseq ?_)
      · simp only [ownsMap, List.map_append, List.sum_append, List.map_cons, List.map_nil, List.sum_cons, List.sum_nil, LinEntry.own, LinEntry.arrays]
        abel
      · intro e he
        rcases List.mem_append.1 he with he | he
        · exact hb e he
        · rw [List.mem_singleton] at he
          subst he
          refine ⟨h1, ?_⟩
          simp only [LinEntry.own, LinEntry.arrays, bytesOf_add, bytesOf_single, bytesOf_packet h3]
          omega
      · rintro m' _ ⟨h4, h5, h6, L, h7, rfl⟩
        rw [List.length_append, List.length_singleton] at h6 h7
        refine ⟨keysFrom_add hc h4, h5, by simp only [List.length_cons]; omega, L, ?_, rfl⟩
        rw [h7, List.length_cons]
        congr 2
        omega

/-- With an allocator that does not tell `delete` from `delete[]` a row is copied and its arrays are released. -/
theorem tri_linRow (degree : ℕ) {shares : Block} {r : LinEntry} (hs : shares ∈ R) :
    Tri S (r.arrays + R) (linRowMem false degree shares r) fun c R' => R' = ↑c + R := by
  unfold linRowMem LinEntry.arrays
  rw [add_assoc, add_assoc]
  refine Tri.bind (Tri.newObj _) ?_
  rintro c _ ⟨-, rfl⟩
  refine Tri.bind (Tri.touch (by simp [hs])) ?_
  rintro _ _ rfl
  use_ptr
  use_ptr
  use_ptr
  refine Tri.bind (Tri.release (.inr rfl) (by takes)) ?_
  rintro _ _ rfl
  refine Tri.bind (Tri.release (.inr rfl) (by takes)) ?_
  rintro _ _ rfl
  refine Tri.bind (Tri.release (.inr rfl) (by takes)) ?_
  rintro _ _ rfl
  exact Tri.pure rfl

/-- As the language has it, releasing the first array is undefined. -/
theorem bad_linRow (degree : ℕ) {shares : Block} {r : LinEntry} (hs : shares ∈ R) (hw : r.x.way = .arr) :
    Bad S (r.arrays + R) (linRowMem true degree shares r) := by
  unfold linRowMem LinEntry.arrays
  rw [add_assoc, add_assoc]
  refine Bad.bind (Tri.newObj _) ?_
  rintro c _ ⟨-, rfl⟩
  refine Bad.bind (Tri.touch (by simp [hs])) ?_
  rintro _ _ rfl
  refine Bad.bind (Tri.touch (by simp)) ?_
  rintro _ _ rfl
  refine Bad.bind (Tri.touch (by simp)) ?_
  rintro _ _ rfl
  refine Bad.bind (Tri.touch (by simp)) ?_
  rintro _ _ rfl
  exact Bad.first (Bad.release (by rw [hw]; decide) (by takes))

/-! ## Server 1 -/

theorem sum_add_map {α : Type} (l : List α) (f g : α → Multiset Block) : (l.map fun a => f a + g a).sum = (l.map f).sum + (l.map g).sum := by
  induction l with
  | nil => simp
  | cons a l ih =>
    simp only [List.map_cons, List.sum_cons, ih]
    abel

theorem ownsMap_split (m : Map LinEntry) :
    ownsMap LinEntry.own m = ((m.map (·.2)).map LinEntry.arrays).sum + owns ((m.map (·.2)).map LinEntry.packet) := by
  simp only [ownsMap, owns, List.map_map, LinEntry.own]
  rw [sum_add_map]
  rfl

theorem clean_mock_bad {β : Type} (shape : List (Way × ℕ)) {m : Mem β} (hm : Bad S R m) :
    Bad S R (do
      let mock ← Verif.newObj shape
      Verif.deleteObj mock
      m) := by
  refine Bad.bind (Tri.newObj _) ?_
  rintro o _ ⟨-, rfl⟩
  refine Bad.bind (Tri.deleteObj (by takes)) ?_
  rintro _ _ rfl
  exact hm

/-- The loss of a LINREG query apart from the arrays of what was left out: the result of the conversion. -/
def convertLoss (degree n : ℕ) : ℕ := 8 * n + n * (8 * linCols degree)

theorem tri_lin1 (shape : ℕ → List (Way × ℕ)) (nbits degree N : ℕ) {subs : List (Bytes × Bool)} {ord : Map LinEntry → Map LinEntry} (k : Keep)
    (hS : 8 * linCols degree ≤ S) (hord : ∀ m, (ord m).Perm m) (hne : usable subs ≠ []) :
    Tri S (k.owned + R) (lin1Mem false shape nbits degree N subs ord k) fun k' R' =>
      ∃ L, bytesOf L = (subs.length - (usable subs).length) * arraysBytes degree + convertLoss degree (usable subs).length ∧ R' = k'.owned + (L + R) := by
  unfold lin1Mem
  refine Tri.bind (Tri.onStack hS) ?_
  rintro _ _ rfl
  refine clean_mock _ ?_
  refine Tri.pre (R' := ownsMap LinEntry.own [] + (k.owned + R)) (by simp [ownsMap])
    (Tri.bind (tri_linIntake degree N subs [] (by simp [Map.keys]) (by simp) _) ?_)
  rintro m _ ⟨h1, -, -, L1, h1b, rfl⟩
  have hlen : m.length = (usable subs).length := by simpa [Map.keys] using (keysFrom_usable h1).length_eq
  have hp : (((ord m).map (·.2)).length) = (usable subs).length := by rw [List.length_map, (hord m).length_eq, hlen]
  have hpne : ((ord m).map (·.2)).map LinEntry.packet ≠ [] := by
    intro e
    have := congrArg List.length e
    rw [List.length_map, hp] at this
    exact hne (List.length_eq_zero_iff.1 this)
  dsimp only
  new sh h2
  new pa h3
  new pk h4
  new ci h5
  refine Tri.pre (R' := (((ord m).map (·.2)).map LinEntry.arrays).sum + (owns (((ord m).map (·.2)).map LinEntry.packet) +
    (k.owned + ({ci} + ({pk} + ({pa} + ({sh} + (L1 + R)))))))) ?_
    (Tri.bind (Tri.each (out := fun o : List Block => (↑o : Multiset Block)) (P := fun _ _ => True) ?_) ?_)
  · rw [← ownsMap_perm (hord m), ownsMap_split]
    abel
  · intro r hr R1 hR1
    refine (tri_linRow degree (Multiset.mem_of_le hR1 (by simp))).conseq ?_
    rintro c _ rfl
    exact ⟨trivial, rfl⟩
  rintro circuits _ ⟨h6, rfl⟩
  have hcl := length_of_forall₂ h6
  refine Tri.bind (tri_shareConvert _ _ _ _) ?_
  rintro sp _ ⟨h7, L, h8, rfl⟩
  refine Tri.pre (R' := k.owned + ({sp} + (L + (owns circuits + (owns (((ord m).map (·.2)).map LinEntry.packet) +
    ({ci} + ({pk} + ({pa} + ({sh} + (L1 + R)))))))))) (by simp only [owns]; abel)
    (Tri.bind (tri_validateSnips shape N (linMuls degree) k hpne (by rw [hcl, List.length_map (f := LinEntry.packet)]) ?_ ?_) ?_)
  · intro o ho b hb
    simp only [Multiset.mem_add]
    exact .inr (.inr (.inr (.inl (mem_owns ho hb))))
  · intro o ho b hb
    simp only [Multiset.mem_add]
    exact .inr (.inr (.inl (mem_owns ho hb)))
  rintro ⟨sn, k'⟩ _ ⟨h9, -, rfl⟩
  dsimp only at *
  new va h10
  refine (clean_bools _).run fun _ => ?_
  refine Tri.bind (tri_deletePairs (R₀ := {va} + ({sn} + (k'.owned + ({sp} + (L + ({ci} + ({pk} + ({pa} + ({sh} + (L1 + R))))))))))
    (by rw [hcl, List.length_map (f := LinEntry.packet)]) (by abel)) ?_
  rintro _ _ rfl
  rel
  rel
  rel
  rel
  rel
  new b h11
  rel
  rel
  rel
  refine Tri.pure ⟨L + L1, ?_, by abel⟩
  rw [bytesOf_add, h8, h1b, hlen, convertLoss]
  simp only [List.length_nil, Nat.zero_add]
  omega

theorem bad_lin1 (shape : ℕ → List (Way × ℕ)) (nbits degree N : ℕ) {subs : List (Bytes × Bool)} {ord : Map LinEntry → Map LinEntry} (k : Keep)
    (hS : 8 * linCols degree ≤ S) (hord : ∀ m, (ord m).Perm m) (hne : usable subs ≠ []) :
    Bad S R (lin1Mem true shape nbits degree N subs ord k) := by
  unfold lin1Mem
  refine Bad.bind (Tri.onStack hS) ?_
  rintro _ R1 h0
  rw [h0]
  clear h0 R1
  refine clean_mock_bad _ ?_
  refine Bad.pre (R' := ownsMap LinEntry.own [] + R) (by simp [ownsMap])
    (Bad.bind (tri_linIntake degree N subs [] (by simp [Map.keys]) (by simp) _) ?_)
  rintro m _ ⟨h1, h1c, -, L1, -, rfl⟩
  have hlen : m.length = (usable subs).length := by simpa [Map.keys] using (keysFrom_usable h1).length_eq
  have hm : ord m ≠ [] := by
    intro e
    have := (hord m).length_eq
    rw [e, hlen] at this
    exact hne (List.length_eq_zero_iff.1 this.symm)
  obtain ⟨⟨key, r⟩, rest, hr⟩ := List.exists_cons_of_ne_nil hm
  dsimp only
  refine Bad.bind (Tri.alloc _ _) ?_
  rintro sh _ ⟨-, -, rfl⟩
  refine Bad.bind (Tri.alloc _ _) ?_
  rintro pa _ ⟨-, -, rfl⟩
  refine Bad.bind (Tri.alloc _ _) ?_
  rintro pk _ ⟨-, -, rfl⟩
  refine Bad.bind (Tri.alloc _ _) ?_
  rintro ci _ ⟨-, -, rfl⟩
  have hmem : (key, r) ∈ m := (hord m).mem_iff.1 (by rw [hr]; simp)
  refine Bad.first ?_
  rw [hr, List.map_cons, Verif.each]
  refine Bad.first (Bad.pre (R' := r.arrays + (↑r.packet + (ownsMap LinEntry.own rest + ({ci} + ({pk} + ({pa} + ({sh} + (L1 + R)))))))) ?_
    (bad_linRow degree (by simp) (h1c _ hmem).1))
  rw [← ownsMap_perm (hord m), hr]
  simp only [ownsMap, List.map_cons, List.sum_cons, LinEntry.own]
  abel

/-! ## Server 0 -/

theorem tri_linRows0 (degree N : ℕ) {shares : Block} (m : Map LinEntry) (hn : (Map.keys m).Nodup) :
    ∀ (ks done : List Bytes) (_ : ks.Nodup) (_ : ∀ k ∈ ks, k ∉ done) (R : Multiset Block) (_ : shares ∈ R),
    Tri S (ownsMap LinEntry.own (m.without done) + R) (linRows0Mem false degree N shares m ks) fun rs R' =>
      rs.length = ks.length ∧ R' = owns (rs.map (·.1)) + (owns (rs.map (·.2)) + (ownsMap LinEntry.own (m.without (ks.reverse ++ done)) + R))
  | [], done, _, _, R, _ => Tri.pure ⟨rfl, by simp [owns]⟩
  | k :: ks, done, hd, hk, R, hs => by
    unfold linRows0Mem Verif.each
    have hd' := List.nodup_cons.1 hd
    have rest := tri_linRows0 degree N (shares := shares) m hn ks (k :: done) hd'.2 fun k' hk' => by
      simp only [List.mem_cons, not_or]
      exact ⟨fun e => hd'.1 (e ▸ hk'), hk k' (by simp [hk'])⟩
    unfold linRows0Mem at rest
    beta_reduce
    have fin : ∀ c p : List Block, ∀ rs : List (List Block × List Block), rs.length = ks.length →
        ∀ R1, R1 = owns (rs.map (·.1)) + (owns (rs.map (·.2)) + (ownsMap LinEntry.own (m.without (ks.reverse ++ k :: done)) + (↑c + (↑p + R)))) →
        Tri S R1 (pure ((c, p) :: rs) : Mem (List (List Block × List Block))) fun rs R' =>
          rs.length = (k :: ks).length ∧
            R' = owns (rs.map (·.1)) + (owns (rs.map (·.2)) + (ownsMap LinEntry.own (m.without ((k :: ks).reverse ++ done)) + R)) := by
      rintro c p rs h1 _ rfl
      refine Tri.pure ⟨by simp [h1], ?_⟩
      rw [List.map_cons, List.map_cons, owns_cons, owns_cons, List.reverse_cons, List.append_assoc, List.singleton_append]
      abel
    cases hlk : m.lookup k with
    | some r =>
      refine Tri.bind (P := fun q R' => q.2 = r.packet ∧ R' = ↑q.1 + (ownsMap LinEntry.own (m.without (k :: done)) + (↑r.packet + R))) ?_ ?_
      · refine Tri.pre (R' := r.arrays + (ownsMap LinEntry.own (m.without (k :: done)) + (↑r.packet + R))) ?_ (Tri.bind (tri_linRow degree (by simp [hs])) ?_)
        · rw [without_some hn hlk (hk k (by simp)), LinEntry.own]
          abel
        · rintro c _ rfl
          exact Tri.pure ⟨rfl, rfl⟩
      rintro ⟨c, p⟩ _ ⟨h1, rfl⟩
      dsimp only at *
      subst h1
      refine Tri.pre (R' := ownsMap LinEntry.own (m.without (k :: done)) + (↑c + (↑r.packet + R))) (by abel) (Tri.bind (rest _ (by simp [hs])) ?_)
      rintro rs _ ⟨h2, h3⟩
      exact fin c r.packet rs h2 _ h3
    | none =>
      refine Tri.bind (P := fun q R' => R' = ↑q.1 + (↑q.2 + (ownsMap LinEntry.own (m.without (k :: done)) + R))) ?_ ?_
      · refine Tri.bind (tri_linArrays degree) ?_
        rintro ⟨x, x2, xy⟩ _ ⟨-, -, rfl⟩
        dsimp only
        refine Tri.bind (Tri.newObj _) ?_
        rintro p _ ⟨-, rfl⟩
        refine Tri.pre (R' := (⟨x, x2, xy, p⟩ : LinEntry).arrays + (↑p + (ownsMap LinEntry.own (m.without (k :: done)) + R))) ?_
          (Tri.bind (tri_linRow degree (by simp [hs])) ?_)
        · rw [without_none hlk]
          simp only [LinEntry.arrays]
          abel
        · rintro c _ rfl
          exact Tri.pure rfl
      rintro ⟨c, p⟩ _ rfl
      dsimp only
      refine Tri.pre (R' := ownsMap LinEntry.own (m.without (k :: done)) + (↑c + (↑p + R))) (by abel) (Tri.bind (rest _ (by simp [hs])) ?_)
      rintro rs _ ⟨h2, h3⟩
      exact fin c p rs h2 _ h3

/-- What a refused answer leaves behind: `x_accum` and `y_accum`. -/
def accumLoss (degree : ℕ) : ℕ := 8 * (degree + linQuad degree) + 8 * degree

theorem tri_lin0 (shape : ℕ → List (Way × ℕ)) (nbits degree N : ℕ) {subs : List (Bytes × Bool)} {ks : List Bytes} (refused : Bool) (k : Keep)
    (hS : 8 * linCols degree ≤ S) (hks : ks.Nodup) (hne : ks ≠ []) :
    Tri S (k.owned + R) (lin0Mem false shape nbits degree N subs ks refused k) fun k' R' =>
      ∃ L, bytesOf L = (subs.length - (usable subs).length) * arraysBytes degree + convertLoss degree ks.length +
        ((usable subs).filter fun k => k ∉ ks).length * (arraysBytes degree + packetBytes degree N) + (if refused then accumLoss degree else 0) ∧
        R' = k'.owned + (L + R) := by
  unfold lin0Mem
  refine Tri.bind (Tri.onStack hS) ?_
  rintro _ _ rfl
  refine clean_mock _ ?_
  refine Tri.pre (R' := ownsMap LinEntry.own [] + (k.owned + R)) (by simp [ownsMap])
    (Tri.bind (tri_linIntake degree N subs [] (by simp [Map.keys]) (by simp) _) ?_)
  rintro m _ ⟨h1, h1c, -, L1, h1b, rfl⟩
  have hlen : m.length = (usable subs).length := by simpa [Map.keys] using (keysFrom_usable h1).length_eq
  dsimp only
  new sh h2
  new pa h3
  new va h10
  new pk h4
  new ci h5
  refine Tri.pre (R' := ownsMap LinEntry.own (m.without []) + (k.owned + ({ci} + ({pk} + ({va} + ({pa} + ({sh} + (L1 + R)))))))) (by rw [without_nil]; abel)
    (Tri.bind (tri_linRows0 degree N m h1.1 ks [] hks (by simp) _ (by simp)) ?_)
  rintro rs _ ⟨h6, rfl⟩
  rw [without_reverse]
  have hpne : rs.map (·.2) ≠ [] := by
    intro e
    have := congrArg List.length e
    rw [List.length_map, h6] at this
    exact hne (List.length_eq_zero_iff.1 this)
  refine Tri.bind (tri_shareConvert _ _ _ _) ?_
  rintro sp _ ⟨h7, L, h8, rfl⟩
  refine Tri.pre (R' := k.owned + ({sp} + (L + (owns (rs.map (·.1)) + (owns (rs.map (·.2)) +
    (ownsMap LinEntry.own (m.without ks) + ({ci} + ({pk} + ({va} + ({pa} + ({sh} + (L1 + R)))))))))))) (by abel)
    (Tri.bind (tri_validateSnips shape N (linMuls degree) k hpne (by simp) ?_ ?_) ?_)
  · intro o ho b hb
    simp only [Multiset.mem_add]
    exact .inr (.inr (.inr (.inl (mem_owns ho hb))))
  · intro o ho b hb
    simp only [Multiset.mem_add]
    exact .inr (.inr (.inl (mem_owns ho hb)))
  rintro ⟨sn, k'⟩ _ ⟨h9, -, rfl⟩
  dsimp only at *
  refine Tri.bind (tri_deletePairs (R₀ := {sn} + (k'.owned + ({sp} + (L + (ownsMap LinEntry.own (m.without ks) +
    ({ci} + ({pk} + ({va} + ({pa} + ({sh} + (L1 + R))))))))))) (by simp) (by abel)) ?_
  rintro _ _ rfl
  refine (clean_bools _).run fun _ => ?_
  rel
  rel
  rel
  rel
  rel
  new a h11
  rel
  rel
  refine Tri.bind (Tri.alloc _ _) ?_
  rintro xa _ ⟨h12, h12b, rfl⟩
  refine Tri.bind (Tri.alloc _ _) ?_
  rintro ya _ ⟨h13, h13b, rfl⟩
  rel
  have h14 : ∀ e ∈ m.without ks, bytesOf (LinEntry.own e.2) = arraysBytes degree + packetBytes degree N := fun e he => (h1c e (List.mem_filter.1 he).1).2
  have h15 : bytesOf L1 = (subs.length - (usable subs).length) * arraysBytes degree := by rw [h1b, hlen]; simp
  cases refused with
  | true =>
    refine Tri.pure ⟨L + (L1 + (ownsMap LinEntry.own (m.without ks) + ({xa} + {ya}))), ?_, by abel⟩
    simp only [bytesOf_add, bytesOf_single, h8, h15, h12b, h13b, bytesOf_ownsMap h14, without_length (keysFrom_usable h1), convertLoss, accumLoss, if_true]
    omega
  | false =>
    simp only [Bool.false_eq_true, if_false]
    new co h16
    rel
    rel
    rel
    refine Tri.pure ⟨L + (L1 + ownsMap LinEntry.own (m.without ks)), ?_, by abel⟩
    simp only [bytesOf_add, h8, h15, bytesOf_ownsMap h14, without_length (keysFrom_usable h1), convertLoss]
    omega

theorem bad_lin0 (shape : ℕ → List (Way × ℕ)) (nbits degree N : ℕ) {subs : List (Bytes × Bool)} {ks : List Bytes} (refused : Bool) (k : Keep)
    (hS : 8 * linCols degree ≤ S) (hne : ks ≠ []) : Bad S R (lin0Mem true shape nbits degree N subs ks refused k) := by
  unfold lin0Mem
  refine Bad.bind (Tri.onStack hS) ?_
  rintro _ R1 h0
  rw [h0]
  clear h0 R1
  refine clean_mock_bad _ ?_
  refine Bad.pre (R' := ownsMap LinEntry.own [] + R) (by simp [ownsMap])
    (Bad.bind (tri_linIntake degree N subs [] (by simp [Map.keys]) (by simp) _) ?_)
  rintro m _ ⟨h1, h1c, -, L1, -, rfl⟩
  obtain ⟨key, rest, rfl⟩ := List.exists_cons_of_ne_nil hne
  dsimp only
  refine Bad.bind (Tri.alloc _ _) ?_
  rintro sh _ ⟨-, -, rfl⟩
  refine Bad.bind (Tri.alloc _ _) ?_
  rintro pa _ ⟨-, -, rfl⟩
  refine Bad.bind (Tri.alloc _ _) ?_
  rintro va _ ⟨-, -, rfl⟩
  refine Bad.bind (Tri.alloc _ _) ?_
  rintro pk _ ⟨-, -, rfl⟩
  refine Bad.bind (Tri.alloc _ _) ?_
  rintro ci _ ⟨-, -, rfl⟩
  refine Bad.first ?_
  unfold linRows0Mem Verif.each
  beta_reduce
  refine Bad.first ?_
  cases hlk : m.lookup key with
  | some r =>
    refine Bad.first (Bad.pre (R' := r.arrays + (↑r.packet + (ownsMap LinEntry.own (m.without [key]) + ({ci} + ({pk} + ({va} + ({pa} + ({sh} + (L1 + R))))))))) ?_
      (bad_linRow degree (by simp) (h1c _ (mem_of_lookup hlk)).1))
    rw [← without_nil m, without_some h1.1 hlk (by simp), LinEntry.own, without_nil]
    abel
  | none =>
    refine Bad.bind (tri_linArrays degree) ?_
    rintro ⟨x, x2, xy⟩ _ ⟨h2, -, rfl⟩
    dsimp only at *
    refine Bad.bind (Tri.newObj _) ?_
    rintro p _ ⟨-, rfl⟩
    refine Bad.first (Bad.pre (R' := (⟨x, x2, xy, p⟩ : LinEntry).arrays + (↑p + ({ci} + ({pk} + ({va} + ({pa} + ({sh} + (ownsMap LinEntry.own m + (L1 + R))))))))) ?_
      (bad_linRow degree (by simp) h2))
    simp only [LinEntry.arrays]
    abel

end Verif

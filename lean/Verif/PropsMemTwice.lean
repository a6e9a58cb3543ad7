import Verif.PropsMem
import Verif.PropsLinReg

/-!
# C79, continued: a key announced twice

Server 1 announces the keys of a map, each once (server.cpp:756-760). Server 0 relies on that (server.cpp:819-834): it does not look for repetitions.
-/

namespace Verif

variable {S : ℕ} {R : Multiset Block}

/-- No block in use has this address. -/
def Heap.Gone (h : Heap) (p : ℕ) : Prop := ∀ c ∈ h.live, c.ptr ≠ p

theorem release_gone {w : Way} {b : Block} {s : Bool} {h h' : Heap} {u : Unit} (hok : h.Ok) (e : Verif.release w b s h = some (u, h')) :
    h'.Ok ∧ h'.live ⊆ h.live ∧ h'.Gone b.ptr ∧ ¬ h.Gone b.ptr := by
  unfold Verif.release at e
  split at e
  · cases e
  · rename_i c hc
    split at e
    · cases e
      have hm := List.mem_of_find?_eq_some hc
      have hp : c.ptr = b.ptr := by simpa using List.find?_some hc
      have hnd : h.live.Nodup := List.Nodup.of_map _ hok.1
      refine ⟨⟨hok.1.sublist (List.erase_sublist.map _), fun d hd => hok.2 d (List.mem_of_mem_erase hd)⟩, List.erase_subset, ?_, fun hg => hg c hm hp⟩
      intro d hd hdp
      have hd' := (hnd.mem_erase_iff).1 hd
      exact hd'.1 (List.inj_on_of_nodup_map hok.1 hd'.2 hm (hdp.trans hp.symm))
    · cases e

theorem gone_mono {h h' : Heap} (hs : h'.live ⊆ h.live) {p : ℕ} (hg : h.Gone p) : h'.Gone p := fun c hc => hg c (hs hc)

theorem bind_some {α β : Type} {m : Mem α} {f : α → Mem β} {h : Heap} {r : β × Heap} (e : (m >>= f) h = some r) :
    ∃ a h', m h = some (a, h') ∧ f a h' = some r := by
  have e' : (m h).bind (fun x => f x.1 x.2) = some r := e
  obtain ⟨⟨a, h'⟩, e1, e2⟩ := Option.bind_eq_some_iff.1 e'
  exact ⟨a, h', e1, e2⟩

theorem releases_gone : ∀ (o : List Block) {h h' : Heap} {l : List Unit} (_ : h.Ok) (_ : each o (fun b => release b.way b) h = some (l, h')),
    h'.Ok ∧ h'.live ⊆ h.live ∧ ∀ b ∈ o, h'.Gone b.ptr ∧ ¬ h.Gone b.ptr
  | [], h, h', l, hok, e => by
    cases e
    exact ⟨hok, List.Subset.refl _, by simp⟩
  | b :: o, h, h', l, hok, e => by
    obtain ⟨u, h1, e1, e2⟩ := bind_some e
    obtain ⟨l', h2, e3, e4⟩ := bind_some e2
    cases e4
    obtain ⟨k1, k2, k3, k4⟩ := release_gone hok e1
    obtain ⟨j1, j2, j3⟩ := releases_gone o k1 e3
    refine ⟨j1, fun c hc => k2 (j2 hc), fun c hc => ?_⟩
    rcases List.mem_cons.1 hc with rfl | hc
    · exact ⟨gone_mono j2 k3, k4⟩
    · exact ⟨(j3 c hc).1, fun hg => (j3 c hc).2 (gone_mono k2 hg)⟩

theorem deleteObj_gone {o : List Block} {h h' : Heap} {u : Unit} (hok : h.Ok) (e : deleteObj o h = some (u, h')) :
    h'.Ok ∧ h'.live ⊆ h.live ∧ ∀ b ∈ o, h'.Gone b.ptr ∧ ¬ h.Gone b.ptr := by
  obtain ⟨l, h1, e1, e2⟩ := bind_some e
  cases e2
  exact releases_gone o hok e1

/-- If a loop of deletions is defined, no two of the objects have a block in common. -/
theorem deletePairs_disjoint : ∀ (l : List (List Block × List Block)) {h h' : Heap} {us : List Unit} (_ : h.Ok)
    (_ : each l (fun e => do
      deleteObj e.1
      deleteObj e.2) h = some (us, h')),
    (∀ e ∈ l, ∀ b ∈ e.2, ¬ h.Gone b.ptr) ∧ (l.map (·.2)).Pairwise fun o o' => ∀ b ∈ o, b ∉ o'
  | [], h, h', us, hok, e => ⟨by simp, .nil⟩
  | d :: l, h, h', us, hok, e => by
    obtain ⟨u, h1, e1, e2⟩ := bind_some e
    obtain ⟨us', h2, e3, -⟩ := bind_some e2
    obtain ⟨u0, h0, e4, e5⟩ := bind_some e1
    obtain ⟨a1, a2, -⟩ := deleteObj_gone hok e4
    obtain ⟨b1, b2, b3⟩ := deleteObj_gone a1 e5
    obtain ⟨c1, c2⟩ := deletePairs_disjoint l b1 e3
    refine ⟨fun e he b hb => ?_, ?_⟩
    · rcases List.mem_cons.1 he with rfl | he
      · exact fun hg => (b3 b hb).2 (gone_mono a2 hg)
      · exact fun hg => c1 e he b hb (gone_mono (fun c hc => a2 (b2 hc)) hg)
    · rw [List.map_cons]
      refine List.pairwise_cons.2 ⟨fun o ho b hb hb' => ?_, c2⟩
      obtain ⟨e, he, rfl⟩ := List.mem_map.1 ho
      exact c1 e he b hb' (b3 b hb).1

/-- The packets taken for the announced keys. -/
theorem tri_packetsAny (m : Map (List Block)) (K : Multiset Block) : ∀ (ks : List Bytes) (R : Multiset Block)
    (_ : ∀ k p, m.lookup k = some p → ∀ b ∈ p, b ∈ R),
    Tri S (K + R) (varPacketsMem m ks) fun ps R' => List.Forall₂ (fun k p => ∀ q, m.lookup k = some q → p = q) ks ps ∧
      ∃ F, R' = K + (F + R) ∧ ∀ o ∈ ps, ∀ b ∈ o, b ∈ F + R
  | [], R, _ => Tri.pure ⟨.nil, 0, by simp, by simp⟩
  | k :: ks, R, hm => by
    unfold varPacketsMem Verif.each
    have step : ∀ (p : List Block) (F : Multiset Block) (_ : ∀ b ∈ p, b ∈ F + R) (_ : ∀ q, m.lookup k = some q → p = q), Tri S (K + (F + R)) (do
        let bs ← Verif.each ks fun k => (match m.lookup k with
          | some p => pure p
          | none => Verif.newObj (packetShape 1 2) : Mem (List Block))
        pure (p :: bs) : Mem (List (List Block))) fun ps R' =>
          List.Forall₂ (fun k p => ∀ q, m.lookup k = some q → p = q) (k :: ks) ps ∧ ∃ F, R' = K + (F + R) ∧ ∀ o ∈ ps, ∀ b ∈ o, b ∈ F + R := by
      intro p F hp hq
      refine Tri.bind (tri_packetsAny m K ks (F + R) fun k p e b hb => Multiset.mem_add.2 (.inr (hm k p e b hb))) ?_
      rintro ps _ ⟨h1, G, rfl, h2⟩
      refine Tri.pure ⟨.cons hq h1, G + F, by abel, fun o ho b hb => ?_⟩
      rw [add_assoc]
      rcases List.mem_cons.1 ho with rfl | ho
      · exact Multiset.mem_add.2 (.inr (hp b hb))
      · exact h2 o ho b hb
    beta_reduce
    cases hlk : m.lookup k with
    | some p =>
      refine Tri.bind (Tri.pure (Q := fun q R' => q = p ∧ R' = K + (0 + R)) ⟨rfl, by rw [zero_add]⟩) ?_
      rintro q _ ⟨hq, rfl⟩
      exact step q 0 (fun b hb => by rw [zero_add]; exact hm k q (hq ▸ hlk) b hb) (by rw [hlk, hq]; rintro r ⟨⟩; rfl)
    | none =>
      refine Tri.bind (Tri.newObj _) ?_
      rintro p _ ⟨-, rfl⟩
      refine Tri.pre (by abel) (step p ↑p (fun b hb => Multiset.mem_add.2 (.inl hb)) (by rw [hlk]; rintro q ⟨⟩))

theorem count_le_one {m : Map (List Block)} {key : Bytes} {p : List Block} (hk : m.lookup key = some p) (hp : p ≠ []) {ks : List Bytes}
    {ps : List (List Block)} (h : List.Forall₂ (fun k p => ∀ q, m.lookup k = some q → p = q) ks ps)
    (hd : ps.Pairwise fun o o' => ∀ b ∈ o, b ∉ o') : ks.count key ≤ 1 := by
  induction h with
  | nil => simp
  | @cons k o ks ps h1 h2 ih =>
    obtain ⟨d1, d2⟩ := List.pairwise_cons.1 hd
    by_cases e : k = key
    · subst e
      have ho := h1 p hk
      have : k ∉ ks := by
        intro hin
        have : p ∈ ps := by
          clear ih d1 d2 hd h1
          induction h2 with
          | nil => cases hin
          | cons a1 a2 ih =>
            rcases List.mem_cons.1 hin with rfl | hin
            · rw [a1 p hk]; exact List.mem_cons_self
            · exact List.mem_cons_of_mem _ (ih hin)
        obtain ⟨b, hb⟩ := List.exists_mem_of_ne_nil p hp
        exact d1 p this b (ho ▸ hb) hb
      rw [List.count_cons_self, List.count_eq_zero_of_not_mem this]
    · rw [List.count_cons_of_ne e]
      exact ih d2

theorem bad_varRows (shape : ℕ → List (Way × ℕ)) (sv : Bool) (nbits : ℕ) {packets : List (List Block)} {shares : Block} (k : Keep) (hne : packets ≠ [])
    (hsh : shares ∈ R) (hp : ∀ o ∈ packets, ∀ b ∈ o, b ∈ R) (hd : ¬ packets.Pairwise fun o o' => ∀ b ∈ o, b ∉ o') :
    Bad S (k.owned + R) (varRowsMem shape sv nbits packets shares k) := by
  unfold varRowsMem
  refine Bad.pre (R' := (packets.map fun _ => (0 : Multiset Block)).sum + (k.owned + R)) (by simp)
    (Bad.bind (Tri.each (out := fun o : List Block => (↑o : Multiset Block)) (P := fun _ _ => True) ?_) ?_)
  · intro p hp R1 hR1
    rw [zero_add]
    refine (Tri.newObj _).conseq ?_
    rintro o _ ⟨-, rfl⟩
    exact ⟨trivial, rfl⟩
  rintro circuits _ ⟨h1, rfl⟩
  have hl := length_of_forall₂ h1
  refine Bad.bind (Tri.touch (by simp [hsh])) ?_
  rintro _ _ rfl
  refine Bad.bind (tri_shareConvert _ _ _ _) ?_
  rintro sp _ ⟨h2, L, h3, rfl⟩
  refine Bad.pre (R' := k.owned + ({sp} + (L + (owns circuits + R)))) (by simp only [owns]; abel)
    (Bad.bind (tri_validateSnips shape 2 1 k hne hl ?_ ?_) ?_)
  · intro o ho b hb
    simp [hp o ho b hb]
  · intro o ho b hb
    simp [mem_owns ho hb]
  rintro ⟨sn, k'⟩ R2 -
  refine Bad.first fun h ok _ _ => ?_
  rw [Option.eq_none_iff_forall_ne_some]
  rintro ⟨us, h'⟩ e
  have hz := (deletePairs_disjoint _ ok e).2
  rw [← List.unzip_snd, List.unzip_zip hl] at hz
  exact hd hz

/-- C79 needs the announced keys to be distinct: if server 1 announces a key twice which server 0 can use, server 0 deletes its packet twice, which is
undefined. (server.cpp:826-834, 842-849) -/
theorem C79_false_twice (shape : ℕ → List (Way × ℕ)) (nbits : ℕ) (subs : List (Bytes × Bool)) (ks : List Bytes) (k : Keep) (R : Multiset Block) (h : Heap)
    (hh : h.Holds k R) {key : Bytes} (hk : key ∈ usable subs) (h2 : 2 ≤ ks.count key) : var0Mem shape nbits subs ks k h = none := by
  have bad : Bad h.stack (k.owned + R) (var0Mem shape nbits subs ks k) := by
    unfold var0Mem varCheckBlocks
    refine Bad.bind (Tri.newObj _) ?_
    rintro o _ ⟨-, rfl⟩
    refine Bad.bind (Tri.deleteObj (by takes)) ?_
    rintro _ _ rfl
    refine Bad.pre (R' := ownsMap obj [] + (k.owned + R)) (by simp [ownsMap]) (Bad.bind (tri_varIntake subs [] (by simp [Map.keys]) (by simp)) ?_)
    rintro m _ ⟨h1, h1b, rfl⟩
    dsimp only
    refine Bad.bind (Tri.alloc _ _) ?_
    rintro sh _ ⟨-, -, rfl⟩
    refine Bad.bind (Tri.alloc _ _) ?_
    rintro pa _ ⟨-, -, rfl⟩
    refine Bad.bind (Tri.alloc _ _) ?_
    rintro va _ ⟨-, -, rfl⟩
    refine Bad.bind (Tri.alloc _ _) ?_
    rintro pk _ ⟨-, -, rfl⟩
    refine Bad.bind (Tri.alloc _ _) ?_
    rintro ci _ ⟨-, -, rfl⟩
    have hkey : key ∈ Map.keys m := (keysFrom_usable h1).mem_iff.2 hk
    obtain ⟨p, hp⟩ := Option.isSome_iff_exists.1 ((lookup_isSome_iff m key).2 hkey)
    have mem_of : ∀ {k p}, m.lookup k = some p → (k, p) ∈ m := fun e => mem_of_lookup e
    refine Bad.pre (R' := k.owned + (ownsMap obj m + ({ci} + ({pk} + ({va} + ({pa} + ({sh} + R))))))) (by abel) ?_
    refine Bad.bind (tri_packetsAny m _ ks _ ?_) ?_
    · intro k' q e b hb
      have : b ∈ ownsMap obj m := by
        rw [← owns_eq_ownsMap]
        exact mem_owns (List.mem_map_of_mem (f := (·.2)) (mem_of e)) hb
      simp [this]
    rintro ps _ ⟨f1, F, rfl, f2⟩
    have hne : p ≠ [] := by
      rintro rfl
      have := h1b _ (mem_of hp)
      simp [obj, bytesOf] at this
    have hpne : ps ≠ [] := by
      rintro rfl
      cases f1
      simp at h2
    refine Bad.first (bad_varRows shape false nbits k hpne (by simp) f2 fun hd => ?_)
    have := count_le_one hp hne f1 hd
    omega
  exact bad h hh.1 rfl hh.2

/-! ## LINREG -/

/-- The block at this address was released: addresses are not used again. -/
def Heap.Past (h : Heap) (p : ℕ) : Prop := p < h.next ∧ h.Gone p

/-- What was released stays released. -/
def Stable {α : Type} (m : Mem α) : Prop := ∀ h a h', h.Ok → m h = some (a, h') → h'.Ok ∧ ∀ p, h.Past p → h'.Past p

theorem Stable.pure {α : Type} (a : α) : Stable (Pure.pure a : Mem α) := by
  intro h _ h' ok e
  cases e
  exact ⟨ok, fun _ hp => hp⟩

theorem Stable.bind {α β : Type} {m : Mem α} {f : α → Mem β} (hm : Stable m) (hf : ∀ a, Stable (f a)) : Stable (m >>= f) := by
  intro h b h' ok e
  obtain ⟨a, h1, e1, e2⟩ := bind_some e
  obtain ⟨k1, k2⟩ := hm _ _ _ ok e1
  obtain ⟨j1, j2⟩ := hf a _ _ _ k1 e2
  exact ⟨j1, fun p hp => j2 p (k2 p hp)⟩

theorem Stable.alloc (w : Way) (n : ℕ) : Stable (Verif.alloc w n) := by
  intro h b h' ok e
  cases e
  refine ⟨⟨?_, ?_⟩, fun p hp => ⟨Nat.lt_succ_of_lt hp.1, ?_⟩⟩
  · simp only [List.map_cons, List.nodup_cons]
    refine ⟨fun hin => ?_, ok.1⟩
    obtain ⟨c, hc, ec⟩ := List.mem_map.1 hin
    exact absurd (ok.2 c hc) (by rw [ec]; exact lt_irrefl _)
  · intro c hc
    rcases List.mem_cons.1 hc with rfl | hc
    · exact Nat.lt_succ_self _
    · exact Nat.lt_succ_of_lt (ok.2 c hc)
  · intro c hc
    rcases List.mem_cons.1 hc with rfl | hc
    · exact fun e => absurd hp.1 (by rw [← e]; exact lt_irrefl _)
    · exact hp.2 c hc

theorem release_next {w : Way} {b : Block} {s : Bool} {h h' : Heap} {u : Unit} (e : Verif.release w b s h = some (u, h')) : h'.next = h.next := by
  unfold Verif.release at e
  split at e
  · cases e
  · split at e <;> cases e
    rfl

theorem Stable.release (w : Way) (b : Block) (s : Bool) : Stable (Verif.release w b s) := by
  intro h u h' ok e
  obtain ⟨k1, k2, -⟩ := release_gone ok e
  exact ⟨k1, fun p hp => ⟨by rw [release_next e]; exact hp.1, gone_mono k2 hp.2⟩⟩

theorem Stable.touch (b : Block) : Stable (Verif.touch b) := by
  intro h u h' ok e
  unfold Verif.touch at e
  split at e <;> cases e
  exact ⟨ok, fun _ hp => hp⟩

theorem Stable.each {α β : Type} {f : α → Mem β} (hf : ∀ a, Stable (f a)) : ∀ l : List α, Stable (Verif.each l f)
  | [] => Stable.pure _
  | a :: l => (hf a).bind fun _ => (Stable.each hf l).bind fun _ => Stable.pure _

theorem Stable.newObj (shape : List (Way × ℕ)) : Stable (Verif.newObj shape) := Stable.each (fun _ => Stable.alloc _ _) shape

theorem Stable.linRow (strict : Bool) (degree : ℕ) (shares : Block) (r : LinEntry) : Stable (linRowMem strict degree shares r) :=
  (Stable.newObj _).bind fun _ => (Stable.touch _).bind fun _ => (Stable.touch _).bind fun _ => (Stable.touch _).bind fun _ => (Stable.touch _).bind fun _ =>
    (Stable.release _ _ _).bind fun _ => (Stable.release _ _ _).bind fun _ => (Stable.release _ _ _).bind fun _ => Stable.pure _

/-- The arrays of a row have to be in use before, and are released after. -/
theorem linRow_past {strict : Bool} {degree : ℕ} {shares : Block} {r : LinEntry} {h h' : Heap} {c : List Block} (ok : h.Ok)
    (e : linRowMem strict degree shares r h = some (c, h')) : ¬ h.Past r.x.ptr ∧ h'.Past r.x.ptr := by
  obtain ⟨c0, h1, e1, e⟩ := bind_some e
  obtain ⟨ok1, p1⟩ := Stable.newObj _ _ _ _ ok e1
  obtain ⟨_, h2, e2, e⟩ := bind_some e
  obtain ⟨ok2, p2⟩ := Stable.touch _ _ _ _ ok1 e2
  obtain ⟨_, h3, e3, e⟩ := bind_some e
  obtain ⟨ok3, p3⟩ := Stable.touch _ _ _ _ ok2 e3
  obtain ⟨_, h4, e4, e⟩ := bind_some e
  obtain ⟨ok4, p4⟩ := Stable.touch _ _ _ _ ok3 e4
  obtain ⟨_, h5, e5, e⟩ := bind_some e
  obtain ⟨ok5, p5⟩ := Stable.touch _ _ _ _ ok4 e5
  obtain ⟨_, h6, e6, e⟩ := bind_some e
  obtain ⟨ok6, -, g6, n6⟩ := release_gone ok5 e6
  refine ⟨fun hp => n6 (p5 _ (p4 _ (p3 _ (p2 _ (p1 _ hp))))).2, ?_⟩
  have h6p : h6.Past r.x.ptr := by
    refine ⟨?_, g6⟩
    rw [release_next e6]
    unfold Heap.Gone at n6
    push Not at n6
    obtain ⟨d, hd, ed⟩ := n6
    exact ed ▸ ok5.2 d hd
  exact ((Stable.release _ _ _).bind (fun _ => (Stable.release _ _ _).bind fun _ => Stable.pure _) _ _ _ ok6 e).2 _ h6p

/-- If the rows of LINREG are defined, no usable key was announced twice. -/
theorem linRows_count {strict : Bool} {degree N : ℕ} {shares : Block} {m : Map LinEntry} {key : Bytes} {r : LinEntry} (hk : m.lookup key = some r) :
    ∀ (ks : List Bytes) {h h' : Heap} {rs : List (List Block × List Block)} (_ : h.Ok) (_ : linRows0Mem strict degree N shares m ks h = some (rs, h')),
    ks.count key ≤ 1 ∧ (h.Past r.x.ptr → ks.count key = 0)
  | [], h, h', rs, ok, e => by simp
  | k :: ks, h, h', rs, ok, e => by
    unfold linRows0Mem at e
    obtain ⟨q, h1, e1, e2⟩ := bind_some e
    obtain ⟨rs', h2, e3, -⟩ := bind_some e2
    by_cases ek : k = key
    · subst ek
      simp only [hk] at e1
      obtain ⟨c, h3, e4, e5⟩ := bind_some e1
      cases e5
      obtain ⟨n1, n2⟩ := linRow_past ok e4
      have := (linRows_count hk ks (Stable.linRow _ _ _ _ _ _ _ ok e4).1 e3).2 n2
      rw [List.count_cons_self, this]
      exact ⟨le_rfl, fun hp => absurd hp n1⟩
    · have hs : h1.Ok ∧ ∀ p, h.Past p → h1.Past p := by
        cases hl : m.lookup k with
        | some r' =>
          simp only [hl] at e1
          exact ((Stable.linRow _ _ _ _).bind fun _ => Stable.pure _) _ _ _ ok e1
        | none =>
          simp only [hl] at e1
          exact (((Stable.alloc _ _).bind fun _ => (Stable.alloc _ _).bind fun _ => (Stable.alloc _ _).bind fun _ => Stable.pure _).bind
            fun _ => (Stable.newObj _).bind fun _ => (Stable.linRow _ _ _ _).bind fun _ => Stable.pure _) _ _ _ ok e1
      have ih := linRows_count hk ks hs.1 e3
      rw [List.count_cons_of_ne ek]
      exact ⟨ih.1, fun hp => ih.2 (hs.2 _ hp)⟩

/-- The same for LINREG, also with an allocator that does not tell `delete` from `delete[]`: the arrays of the row are used and released twice.
(server.cpp:1079-1105) -/
theorem C79_false_twice_linreg (strict : Bool) (shape : ℕ → List (Way × ℕ)) (nbits degree N : ℕ) (subs : List (Bytes × Bool)) (ks : List Bytes)
    (refused : Bool) (k : Keep) (h : Heap) (hok : h.Ok) {key : Bytes} (hk : key ∈ usable subs) (h2 : 2 ≤ ks.count key) :
    lin0Mem strict shape nbits degree N subs ks refused k h = none := by
  have bad : Bad h.stack h.used (lin0Mem strict shape nbits degree N subs ks refused k) := by
    unfold lin0Mem
    by_cases hS : 8 * linCols degree ≤ h.stack
    swap
    · exact Bad.first (Bad.onStack (by omega))
    refine Bad.bind (Tri.onStack hS) ?_
    rintro _ R1 h0
    rw [h0]
    clear h0 R1
    refine clean_mock_bad _ ?_
    refine Bad.pre (R' := ownsMap LinEntry.own [] + h.used) (by simp [ownsMap])
      (Bad.bind (tri_linIntake degree N subs [] (by simp [Map.keys]) (by simp) _) ?_)
    rintro m _ ⟨h1, -, -, L1, -, rfl⟩
    have hkey : key ∈ Map.keys m := (keysFrom_usable h1).mem_iff.2 hk
    obtain ⟨r, hr⟩ := Option.isSome_iff_exists.1 ((lookup_isSome_iff m key).2 hkey)
    dsimp only
    refine Bad.bind (Tri.alloc _ _) ?_
    rintro sh _ ⟨-, -, rfl⟩
    refine Bad.bind (Tri.alloc _ _) ?_
    rintro pa _ ⟨-, -, rfl⟩
    refine Bad.bind (Tri.alloc _ _) ?_
    rintro va _ ⟨-, -, rfl⟩
    refine Bad.bind (Tri.alloc _ _) ?_
    rintro pk _ ⟨-, -, rfl⟩
    refine Bad.bind (Tri.alloc _ _) ?_
    rintro ci _ ⟨-, -, rfl⟩
    refine Bad.first fun h' ok' _ _ => ?_
    rw [Option.eq_none_iff_forall_ne_some]
    rintro ⟨rs, h''⟩ e
    have := (linRows_count hr ks ok' e).1
    omega
  exact bad h hok rfl rfl

/-! ## The exact condition -/

/-- The packets of announced keys, where those of the map occur once: those of the map and new ones; the others stay. -/
theorem tri_packetsOnce (m : Map (List Block)) (hn : (Map.keys m).Nodup) : ∀ (ks done : List Bytes) (_ : ∀ k, (m.lookup k).isSome → ks.count k ≤ 1)
    (_ : ∀ k ∈ ks, (m.lookup k).isSome → k ∉ done) (R : Multiset Block),
    Tri S (ownsMap obj (m.without done) + R) (varPacketsMem m ks) fun ps R' =>
      ps.length = ks.length ∧ R' = owns ps + (ownsMap obj (m.without (ks.reverse ++ done)) + R)
  | [], done, _, _, R => Tri.pure ⟨rfl, by simp [owns]⟩
  | k :: ks, done, hd, hk, R => by
    unfold varPacketsMem Verif.each
    have rest := tri_packetsOnce m hn ks (k :: done) (fun k' hk' => (List.count_le_count_cons ..).trans (hd k' hk')) fun k' hk' hs => by
      simp only [List.mem_cons, not_or]
      refine ⟨fun e => ?_, hk k' (by simp [hk']) hs⟩
      subst e
      have h1 := hd k' hs
      rw [List.count_cons_self] at h1
      have h2 := List.count_pos_iff.2 hk'
      omega
    have step : ∀ p : List Block, Tri S (ownsMap obj (m.without (k :: done)) + (obj p + R)) (do
        let bs ← Verif.each ks fun k => (match m.lookup k with
          | some p => pure p
          | none => Verif.newObj (packetShape 1 2) : Mem (List Block))
        pure (p :: bs) : Mem (List (List Block))) fun ps R' =>
          ps.length = (k :: ks).length ∧ R' = owns ps + (ownsMap obj (m.without ((k :: ks).reverse ++ done)) + R) := by
      intro p
      refine Tri.bind (rest _) ?_
      rintro ps _ ⟨h1, rfl⟩
      refine Tri.pure ⟨by simp [h1], ?_⟩
      rw [owns_cons, List.reverse_cons, List.append_assoc, List.singleton_append]
      simp only [obj]
      abel
    beta_reduce
    cases hlk : m.lookup k with
    | some p =>
      refine Tri.bind (Tri.pure (Q := fun q R' => q = p ∧ R' = ownsMap obj (m.without done) + R) ⟨rfl, rfl⟩) ?_
      rintro _ _ ⟨rfl, rfl⟩
      refine Tri.pre ?_ (step _)
      rw [without_some hn hlk (hk k (by simp) (by rw [hlk]; rfl))]
      abel
    | none =>
      refine Tri.bind (Tri.newObj _) ?_
      rintro p _ ⟨-, rfl⟩
      refine Tri.pre ?_ (step p)
      rw [without_none hlk]
      simp only [obj]
      abel

theorem tri_var0Once (shape : ℕ → List (Way × ℕ)) (nbits : ℕ) {subs : List (Bytes × Bool)} {ks : List Bytes} (k : Keep) (hks : ∀ key ∈ usable subs, ks.count key ≤ 1) (hne : ks ≠ []) :
    Tri S (k.owned + R) (var0Mem shape nbits subs ks k) fun k' R' =>
      ∃ L, bytesOf L = 24 * ks.length + ((usable subs).filter fun k => k ∉ ks).length * 112 ∧ R' = k'.owned + (L + R) := by
  unfold var0Mem varCheckBlocks
  refine clean_mock _ ?_
  refine Tri.pre (R' := ownsMap obj [] + (k.owned + R)) (by simp [ownsMap]) (Tri.bind (tri_varIntake subs [] (by simp [Map.keys]) (by simp)) ?_)
  rintro m _ ⟨h1, h1b, rfl⟩
  have hc : ∀ key, (m.lookup key).isSome → ks.count key ≤ 1 := fun key hs =>
    hks key ((keysFrom_usable h1).mem_iff.1 ((lookup_isSome_iff m key).1 hs))
  dsimp only
  new sh h2
  new pa h3
  new va h8
  new pk h4
  new ci h5
  refine Tri.pre (R' := ownsMap obj (m.without []) + (k.owned + ({ci} + ({pk} + ({va} + ({pa} + ({sh} + R))))))) (by rw [without_nil]; abel)
    (Tri.bind (tri_packetsOnce m h1.1 ks [] hc (by simp) _) ?_)
  rintro ps _ ⟨h6, rfl⟩
  rw [without_reverse]
  have hpne : ps ≠ [] := by
    rintro rfl
    exact hne (List.length_eq_zero_iff.1 h6.symm)
  refine Tri.pre (R' := owns ps + (k.owned + ({ci} + ({pk} + ({va} + ({pa} + ({sh} + (ownsMap obj (m.without ks) + R)))))))) (by abel)
    (Tri.bind (tri_varRows shape false nbits k hpne (by simp)) ?_)
  rintro ⟨sp, k'⟩ _ ⟨h9, L, h7, rfl⟩
  dsimp only at *
  refine (clean_bools _).run fun _ => ?_
  rel
  rel
  rel
  rel
  new b h10
  rel
  rel
  rel
  refine Tri.pure ⟨L + ownsMap obj (m.without ks), ?_, by abel⟩
  have h11 : ∀ e ∈ m.without ks, bytesOf (obj e.2) = 112 := fun e he => h1b e (List.mem_filter.1 he).1
  rw [bytesOf_add, h7, h6, bytesOf_ownsMap h11, without_length (keysFrom_usable h1)]

/-- VAR and STDDEV at server 0 without the assumption that the announced keys are distinct: it is enough that no usable one is repeated. -/
theorem C79_var0_once_partial (shape : ℕ → List (Way × ℕ)) (nbits : ℕ) (subs : List (Bytes × Bool)) (ks : List Bytes) (k : Keep)
    (R : Multiset Block) (h : Heap) (hh : h.Holds k R) (hks : ∀ key ∈ usable subs, ks.count key ≤ 1) (hne : ks ≠ []) :
    LeavesBehind (var0Mem shape nbits subs ks k) h R (24 * ks.length + ((usable subs).filter fun k => k ∉ ks).length * 112) :=
  leaves_of_tri hh (tri_var0Once shape nbits k hks hne)

/-- And it is needed: the memory of server 0 is in order exactly if no usable key is announced twice. -/
theorem C79_var0_iff (shape : ℕ → List (Way × ℕ)) (nbits : ℕ) (subs : List (Bytes × Bool)) (ks : List Bytes) (k : Keep)
    (R : Multiset Block) (h : Heap) (hh : h.Holds k R) (hne : ks ≠ []) :
    var0Mem shape nbits subs ks k h ≠ none ↔ ∀ key ∈ usable subs, ks.count key ≤ 1 := by
  constructor
  · intro hd key hk
    by_contra hc
    exact hd (C79_false_twice shape nbits subs ks k R h hh hk (by omega))
  · intro hks
    obtain ⟨k', h', L, e, -⟩ := C79_var0_once_partial shape nbits subs ks k R h hh hks hne
    rw [e]
    exact Option.some_ne_none _

theorem tri_linRowsOnce (degree N : ℕ) {shares : Block} (m : Map LinEntry) (hn : (Map.keys m).Nodup) :
    ∀ (ks done : List Bytes) (_ : ∀ k, (m.lookup k).isSome → ks.count k ≤ 1) (_ : ∀ k ∈ ks, (m.lookup k).isSome → k ∉ done) (R : Multiset Block) (_ : shares ∈ R),
    Tri S (ownsMap LinEntry.own (m.without done) + R) (linRows0Mem false degree N shares m ks) fun rs R' =>
      rs.length = ks.length ∧ R' = owns (rs.map (·.1)) + (owns (rs.map (·.2)) + (ownsMap LinEntry.own (m.without (ks.reverse ++ done)) + R))
  | [], done, _, _, R, _ => Tri.pure ⟨rfl, by simp [owns]⟩
  | k :: ks, done, hd, hk, R, hs => by
    unfold linRows0Mem Verif.each
    have rest := tri_linRowsOnce degree N (shares := shares) m hn ks (k :: done) (fun k' hk' => (List.count_le_count_cons ..).trans (hd k' hk'))
      fun k' hk' hs => by
        simp only [List.mem_cons, not_or]
        refine ⟨fun e => ?_, hk k' (by simp [hk']) hs⟩
        subst e
        have h1 := hd k' hs
        rw [List.count_cons_self] at h1
        have h2 := List.count_pos_iff.2 hk'
        omega
    unfold linRows0Mem at rest
    beta_reduce
    have fin : ∀ c p : List Block, ∀ rs : List (List Block × List Block), rs.length = ks.length →
        ∀ R1, R1 = owns (rs.map (·.1)) + (owns (rs.map (·.2)) + (ownsMap LinEntry.own (m.without (ks.reverse ++ k :: done)) + (↑c + (↑p + R)))) →
        Tri S R1 (pure ((c, p) :: rs) : Mem (List (List Block × List Block))) fun rs R' =>
          rs.length = (k :: ks).length ∧
            R' = owns (rs.map (·.1)) + (owns (rs.map (·.2)) + (ownsMap LinEntry.own (m.without ((k :: ks).reverse ++ done)) + R)) := by
      rintro c p rs h1 _ rfl
      refine Tri.pure ⟨by simp [h1], ?_⟩
      rw [List.map_cons, List.map_cons, owns_cons, owns_cons, List.reverse_cons, List.append_assoc, List.singleton_append]
      abel
    cases hlk : m.lookup k with
    | some r =>
      refine Tri.bind (P := fun q R' => q.2 = r.packet ∧ R' = ↑q.1 + (ownsMap LinEntry.own (m.without (k :: done)) + (↑r.packet + R))) ?_ ?_
      · refine Tri.pre (R' := r.arrays + (ownsMap LinEntry.own (m.without (k :: done)) + (↑r.packet + R))) ?_ (Tri.bind (tri_linRow degree (by simp [hs])) ?_)
        · rw [without_some hn hlk (hk k (by simp) (by rw [hlk]; rfl)), LinEntry.own]
          abel
        · rintro c _ rfl
          exact Tri.pure ⟨rfl, rfl⟩
      rintro ⟨c, p⟩ _ ⟨h1, rfl⟩
      dsimp only at *
      subst h1
      refine Tri.pre (R' := ownsMap LinEntry.own (m.without (k :: done)) + (↑c + (↑r.packet + R))) (by abel) (Tri.bind (rest _ (by simp [hs])) ?_)
      rintro rs _ ⟨h2, h3⟩
      exact fin c r.packet rs h2 _ h3
    | none =>
      refine Tri.bind (P := fun q R' => R' = ↑q.1 + (↑q.2 + (ownsMap LinEntry.own (m.without (k :: done)) + R))) ?_ ?_
      · refine Tri.bind (tri_linArrays degree) ?_
        rintro ⟨x, x2, xy⟩ _ ⟨-, -, rfl⟩
        dsimp only
        refine Tri.bind (Tri.newObj _) ?_
        rintro p _ ⟨-, rfl⟩
        refine Tri.pre (R' := (⟨x, x2, xy, p⟩ : LinEntry).arrays + (↑p + (ownsMap LinEntry.own (m.without (k :: done)) + R))) ?_
          (Tri.bind (tri_linRow degree (by simp [hs])) ?_)
        · rw [without_none hlk]
          simp only [LinEntry.arrays]
          abel
        · rintro c _ rfl
          exact Tri.pure rfl
      rintro ⟨c, p⟩ _ rfl
      dsimp only
      refine Tri.pre (R' := ownsMap LinEntry.own (m.without (k :: done)) + (↑c + (↑p + R))) (by abel) (Tri.bind (rest _ (by simp [hs])) ?_)
      rintro rs _ ⟨h2, h3⟩
      exact fin c p rs h2 _ h3

theorem tri_lin0Once (shape : ℕ → List (Way × ℕ)) (nbits degree N : ℕ) {subs : List (Bytes × Bool)} {ks : List Bytes} (refused : Bool) (k : Keep)
    (hS : 8 * linCols degree ≤ S) (hks : ∀ key ∈ usable subs, ks.count key ≤ 1) (hne : ks ≠ []) :
    Tri S (k.owned + R) (lin0Mem false shape nbits degree N subs ks refused k) fun k' R' =>
      ∃ L, bytesOf L = (subs.length - (usable subs).length) * arraysBytes degree + convertLoss degree ks.length +
        ((usable subs).filter fun k => k ∉ ks).length * (arraysBytes degree + packetBytes degree N) + (if refused then accumLoss degree else 0) ∧
        R' = k'.owned + (L + R) := by
  unfold lin0Mem
  refine Tri.bind (Tri.onStack hS) ?_
  rintro _ _ rfl
  refine clean_mock _ ?_
  refine Tri.pre (R' := ownsMap LinEntry.own [] + (k.owned + R)) (by simp [ownsMap])
    (Tri.bind (tri_linIntake degree N subs [] (by simp [Map.keys]) (by simp) _) ?_)
  rintro m _ ⟨h1, h1c, -, L1, h1b, rfl⟩
  have hlen : m.length = (usable subs).length := by simpa [Map.keys] using (keysFrom_usable h1).length_eq
  have hc : ∀ key, (m.lookup key).isSome → ks.count key ≤ 1 := fun key hs =>
    hks key ((keysFrom_usable h1).mem_iff.1 ((lookup_isSome_iff m key).1 hs))
  dsimp only
  new sh h2
  new pa h3
  new va h10
  new pk h4
  new ci h5
  refine Tri.pre (R' := ownsMap LinEntry.own (m.without []) + (k.owned + ({ci} + ({pk} + ({va} + ({pa} + ({sh} + (L1 + R)))))))) (by rw [without_nil]; abel)
    (Tri.bind (tri_linRowsOnce degree N m h1.1 ks [] hc (by simp) _ (by simp)) ?_)
  rintro rs _ ⟨h6, rfl⟩
  rw [without_reverse]
  have hpne : rs.map (·.2) ≠ [] := by
    intro e
    have := congrArg List.length e
    rw [List.length_map, h6] at this
    exact hne (List.length_eq_zero_iff.1 this)
  refine Tri.bind (tri_shareConvert _ _ _ _) ?_
  rintro sp _ ⟨h7, L, h8, rfl⟩
  refine Tri.pre (R' := k.owned + ({sp} + (L + (owns (rs.map (·.1)) + (owns (rs.map (·.2)) +
    (ownsMap LinEntry.own (m.without ks) + ({ci} + ({pk} + ({va} + ({pa} + ({sh} + (L1 + R)))))))))))) (by abel)
    (Tri.bind (tri_validateSnips shape N (linMuls degree) k hpne (by simp) ?_ ?_) ?_)
  · intro o ho b hb
    simp only [Multiset.mem_add]
    exact .inr (.inr (.inr (.inl (mem_owns ho hb))))
  · intro o ho b hb
    simp only [Multiset.mem_add]
    exact .inr (.inr (.inl (mem_owns ho hb)))
  rintro ⟨sn, k'⟩ _ ⟨h9, -, rfl⟩
  dsimp only at *
  refine Tri.bind (tri_deletePairs (R₀ := {sn} + (k'.owned + ({sp} + (L + (ownsMap LinEntry.own (m.without ks) +
    ({ci} + ({pk} + ({va} + ({pa} + ({sh} + (L1 + R))))))))))) (by simp) (by abel)) ?_
  rintro _ _ rfl
  refine (clean_bools _).run fun _ => ?_
  rel
  rel
  rel
  rel
  rel
  new a h11
  rel
  rel
  refine Tri.bind (Tri.alloc _ _) ?_
  rintro xa _ ⟨h12, h12b, rfl⟩
  refine Tri.bind (Tri.alloc _ _) ?_
  rintro ya _ ⟨h13, h13b, rfl⟩
  rel
  have h14 : ∀ e ∈ m.without ks, bytesOf (LinEntry.own e.2) = arraysBytes degree + packetBytes degree N := fun e he => (h1c e (List.mem_filter.1 he).1).2
  have h15 : bytesOf L1 = (subs.length - (usable subs).length) * arraysBytes degree := by rw [h1b, hlen]; simp
  cases refused with
  | true =>
    refine Tri.pure ⟨L + (L1 + (ownsMap LinEntry.own (m.without ks) + ({xa} + {ya}))), ?_, by abel⟩
    simp only [bytesOf_add, bytesOf_single, h8, h15, h12b, h13b, bytesOf_ownsMap h14, without_length (keysFrom_usable h1), convertLoss, accumLoss, if_true]
    omega
  | false =>
    simp only [Bool.false_eq_true, if_false]
    new co h16
    rel
    rel
    rel
    refine Tri.pure ⟨L + (L1 + ownsMap LinEntry.own (m.without ks)), ?_, by abel⟩
    simp only [bytesOf_add, h8, h15, bytesOf_ownsMap h14, without_length (keysFrom_usable h1), convertLoss]
    omega

/-- The same for LINREG with an allocator that does not tell `delete` from `delete[]` (otherwise it is never in order, `C79_false_linreg`). -/
theorem C79_linreg0_iff (shape : ℕ → List (Way × ℕ)) (nbits degree N : ℕ) (subs : List (Bytes × Bool)) (ks : List Bytes) (refused : Bool) (k : Keep)
    (R : Multiset Block) (h : Heap) (hh : h.Holds k R) (hS : 8 * linCols degree ≤ h.stack) (hne : ks ≠ []) :
    lin0Mem false shape nbits degree N subs ks refused k h ≠ none ↔ ∀ key ∈ usable subs, ks.count key ≤ 1 := by
  constructor
  · intro hd key hk
    by_contra hc
    exact hd (C79_false_twice_linreg false shape nbits degree N subs ks refused k h hh.1 hk (by omega))
  · intro hks
    obtain ⟨k', h', e, -⟩ := tri_lin0Once shape nbits degree N refused k hS hks hne h hh.1 rfl hh.2
    rw [e]
    exact Option.some_ne_none _

/-- Unknown keys may be repeated. -/
example : ∀ key ∈ usable [([1#8], true), ([2#8], false)], [[1#8], [2#8], [2#8]].count key ≤ 1 := by decide +kernel

/-- One key, announced twice. -/
example : [1#8] ∈ usable [([1#8], true), ([2#8], false)] ∧ 2 ≤ [[1#8], [3#8], [1#8]].count [1#8] := by decide +kernel

/-- The heap of a fresh server. -/
example : (⟨0, [], 8388608⟩ : Heap).Holds ⟨none, [], []⟩ 0 := by
  refine ⟨⟨by simp, by simp⟩, ?_⟩
  simp [Heap.used, Keep.owned, owns]

/-! ## The sizes of LINREG -/

/-- C79: the sizes of the arrays of LINREG are those of the rest of the model: one column per field of a submission, and one product per
multiplication gate of `CheckLinReg`. -/
theorem C79_lin_sizes {degree : ℕ} (hd : 1 ≤ degree) (hs : linMul degree < 2 ^ 18) :
    linXs degree + 1 = degree ∧ linQuad degree = numQuad degree ∧ linCols degree = numFields degree ∧
      ∃ c, checkLinReg intModulus degree = some c ∧ c.mulGates.length = linMuls degree := by
  obtain ⟨c, hc, -, hm, -⟩ := linCircuit hd hs
  refine ⟨by unfold linXs; omega, rfl, rfl, c, hc, ?_⟩
  rw [hm, linMul, linMuls, linQuad, linXs, Nat.sub_add_cancel hd, Nat.mul_comm]

example : linMul 3 < 2 ^ 18 ∧ linMuls 3 = 5 := by decide

end Verif

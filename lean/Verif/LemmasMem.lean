import Verif.ModelMem
import Mathlib.Data.Multiset.AddSub
import Mathlib.Algebra.BigOperators.Group.Multiset.Basic
import Mathlib.Algebra.BigOperators.Group.List.Basic
import Mathlib.Algebra.Order.Group.Multiset
import Mathlib.Tactic.Abel

/-! # Reasoning about memory -/

namespace Verif

/-- A heap as a program finds it: the blocks in use are at different addresses, all below the next free one. -/
def Heap.Ok (h : Heap) : Prop := (h.live.map Block.ptr).Nodup ∧ ∀ b ∈ h.live, b.ptr < h.next

/-- The blocks in use, without order. -/
def Heap.used (h : Heap) : Multiset Block := ↑h.live

/-- From every heap with stack size `S` whose blocks in use are `R`, `m` ends without undefined behaviour, with a result and blocks in use as `Q` says. -/
def Tri {α : Type} (S : ℕ) (R : Multiset Block) (m : Mem α) (Q : α → Multiset Block → Prop) : Prop :=
  ∀ h : Heap, h.Ok → h.stack = S → h.used = R → ∃ a h', m h = some (a, h') ∧ h'.Ok ∧ h'.stack = S ∧ Q a h'.used

/-- From every such heap, `m` runs into undefined behaviour. -/
def Bad {α : Type} (S : ℕ) (R : Multiset Block) (m : Mem α) : Prop := ∀ h : Heap, h.Ok → h.stack = S → h.used = R → m h = none

variable {α β : Type} {S : ℕ} {R R' R₀ : Multiset Block}

theorem Tri.pure {a : α} {Q : α → Multiset Block → Prop} (h : Q a R) : Tri S R (Pure.pure a : Mem α) Q := fun hp ok st us => ⟨a, hp, rfl, ok, st, us ▸ h⟩

theorem Tri.bind {m : Mem α} {f : α → Mem β} {P : α → Multiset Block → Prop} {Q : β → Multiset Block → Prop} (hm : Tri S R m P)
    (hf : ∀ a R', P a R' → Tri S R' (f a) Q) : Tri S R (m >>= f) Q := by
  intro h ok st us
  obtain ⟨a, h', e, ok', st', p⟩ := hm h ok st us
  obtain ⟨b, h'', e', r⟩ := hf a _ p h' ok' st' rfl
  refine ⟨b, h'', ?_, r⟩
  show (m h).bind (fun x => f x.1 x.2) = _
  rw [e]
  exact e'

theorem Tri.conseq {m : Mem α} {P Q : α → Multiset Block → Prop} (hm : Tri S R m P) (hf : ∀ a R', P a R' → Q a R') : Tri S R m Q := by
  intro h ok st us
  obtain ⟨a, h', e, ok', st', p⟩ := hm h ok st us
  exact ⟨a, h', e, ok', st', hf _ _ p⟩

theorem Tri.pre {m : Mem α} {Q : α → Multiset Block → Prop} (h : R = R') (hm : Tri S R' m Q) : Tri S R m Q := h ▸ hm

theorem Bad.bind {m : Mem α} {f : α → Mem β} {P : α → Multiset Block → Prop} (hm : Tri S R m P) (hf : ∀ a R', P a R' → Bad S R' (f a)) : Bad S R (m >>= f) := by
  intro h ok st us
  obtain ⟨a, h', e, ok', st', p⟩ := hm h ok st us
  have e' := hf a _ p h' ok' st' rfl
  show (m h).bind (fun x => f x.1 x.2) = _
  rw [e]
  exact e'

theorem Bad.first {m : Mem α} {f : α → Mem β} (hm : Bad S R m) : Bad S R (m >>= f) := by
  intro h ok st us
  show (m h).bind (fun x => f x.1 x.2) = _
  rw [hm h ok st us]
  rfl

theorem Bad.pre {m : Mem α} (h : R = R') (hm : Bad S R' m) : Bad S R m := h ▸ hm

/-- `R` consists of `G` and `R₀`. -/
def Splits (G R R₀ : Multiset Block) : Prop := R = G + R₀

theorem Splits.here {G : Multiset Block} : Splits G (G + R) R := rfl

theorem Splits.next {G H : Multiset Block} (h : Splits G R R₀) : Splits G (H + R) (H + R₀) := by
  unfold Splits at *
  rw [h]
  abel

theorem Splits.all {G : Multiset Block} : Splits G G 0 := (add_zero G).symm

/-- Finds a summand. -/
macro "takes" : tactic => `(tactic| (repeat' (first | exact Splits.here | exact Splits.all | apply Splits.next)))

theorem Tri.alloc (w : Way) (n : ℕ) : Tri S R (Verif.alloc w n) fun b R' => b.way = w ∧ b.bytes = n ∧ R' = {b} + R := by
  rintro h ⟨nd, lt⟩ st rfl
  refine ⟨_, _, rfl, ⟨?_, ?_⟩, st, rfl, rfl, ?_⟩
  · simp only [List.map_cons, List.nodup_cons]
    refine ⟨fun hm => ?_, nd⟩
    obtain ⟨b, hb, e⟩ := List.mem_map.1 hm
    have := lt b hb
    omega
  · intro b hb
    rcases List.mem_cons.1 hb with rfl | hb
    · exact Nat.lt_succ_self _
    · exact (lt b hb).trans (Nat.lt_succ_self _)
  · simp only [Heap.used, Multiset.singleton_add, Multiset.cons_coe]

theorem find_ptr {l : List Block} (nd : (l.map Block.ptr).Nodup) {b : Block} (hb : b ∈ l) : l.find? (fun c => c.ptr == b.ptr) = some b := by
  induction l with
  | nil => cases hb
  | cons c l ih =>
    rw [List.map_cons, List.nodup_cons] at nd
    rcases List.mem_cons.1 hb with rfl | hb
    · simp
    · have : c.ptr ≠ b.ptr := fun e => nd.1 (e ▸ List.mem_map_of_mem hb)
      rw [List.find?_cons_of_neg (by simpa using this)]
      exact ih nd.2 hb

theorem Tri.release {w : Way} {b : Block} {s : Bool} (hw : b.way = w ∨ s = false) (ht : Splits {b} R R₀) : Tri S R (Verif.release w b s) fun _ R' => R' = R₀ := by
  rintro h ⟨nd, lt⟩ st rfl
  have hm : b ∈ h.live := by
    have : b ∈ h.used := by rw [ht]; simp
    exact this
  refine ⟨(), { h with live := h.live.erase b }, ?_, ⟨?_, ?_⟩, st, ?_⟩
  · simp only [Verif.release, find_ptr nd hm, if_pos hw]
  · exact (List.erase_sublist.map _).nodup nd
  · exact fun c hc => lt c (List.mem_of_mem_erase hc)
  · have h2 : h.used = {b} + R₀ := ht
    show (↑(h.live.erase b) : Multiset Block) = R₀
    rw [← Multiset.coe_erase]
    have h3 : (↑h.live : Multiset Block) = b ::ₘ R₀ := by rw [← Multiset.singleton_add]; exact h2
    rw [h3, Multiset.erase_cons_head]

/-- Releasing a block in a way other than that of its allocation is undefined. -/
theorem Bad.release {w : Way} {b : Block} (hw : b.way ≠ w) (ht : Splits {b} R R₀) : Bad S R (Verif.release w b) := by
  rintro h ⟨nd, lt⟩ st rfl
  have hm : b ∈ h.live := by
    have : b ∈ h.used := by rw [ht]; simp
    exact this
  simp only [Verif.release, find_ptr nd hm]
  simp [hw]

/-- Releasing a block that is not in use is undefined. -/
theorem Bad.absent {w : Way} {b : Block} {s : Bool} (ha : ∀ c ∈ R, c.ptr ≠ b.ptr) : Bad S R (Verif.release w b s) := by
  rintro h ⟨nd, lt⟩ st rfl
  have : h.live.find? (fun c => c.ptr == b.ptr) = none := by
    rw [List.find?_eq_none]
    intro c hc e
    exact ha c hc (by simpa using e)
  simp only [Verif.release, this]

theorem Tri.touch {b : Block} (ht : b ∈ R) : Tri S R (Verif.touch b) fun _ R' => R' = R := by
  rintro h ok st rfl
  refine ⟨(), h, ?_, ok, st, rfl⟩
  have : h.live.any (fun c => c.ptr == b.ptr) = true := List.any_eq_true.2 ⟨b, ht, by simp⟩
  simp only [Verif.touch, this, if_true]

theorem Tri.onStack {n : ℕ} (hn : n ≤ S) : Tri S R (Verif.onStack n) fun _ R' => R' = R := by
  rintro h ok st rfl
  exact ⟨(), h, by simp [Verif.onStack, st, hn], ok, st, rfl⟩

theorem Bad.onStack {n : ℕ} (hn : S < n) : Bad S R (Verif.onStack n) := by
  rintro h ok st rfl
  simp [Verif.onStack, st, hn]

theorem Bad.fault : Bad S R (Mem.fault : Mem α) := fun _ _ _ _ => rfl

/-- Releases: the place of the block is found. -/
macro "rel" : tactic => `(tactic| (refine Tri.bind (Tri.release (.inl (by assumption)) (by takes)) ?_; intro _ R1 hR1; subst hR1))

/-! ## Loops -/

/-- A loop whose body takes `res a` and leaves `out b`. -/
theorem Tri.each {l : List α} {f : α → Mem β} {res : α → Multiset Block} {out : β → Multiset Block} {P : α → β → Prop}
    (hf : ∀ a ∈ l, ∀ R', R ≤ R' → Tri S (res a + R') (f a) fun b R'' => P a b ∧ R'' = out b + R') :
    Tri S ((l.map res).sum + R) (Verif.each l f) fun bs R' => List.Forall₂ P l bs ∧ R' = (bs.map out).sum + R := by
  induction l generalizing R with
  | nil => exact Tri.pure ⟨.nil, by simp⟩
  | cons a l ih =>
    simp only [List.map_cons, List.sum_cons, Verif.each]
    rw [add_assoc]
    refine Tri.bind (hf a (by simp) _ (Multiset.le_add_left _ _)) ?_
    rintro b _ ⟨p, rfl⟩
    refine Tri.pre (R' := (l.map res).sum + (out b + R)) (by abel) (Tri.bind (ih fun a ha R' hR => hf a (by simp [ha]) R' ((Multiset.le_add_left _ _).trans hR)) ?_)
    rintro bs _ ⟨q, rfl⟩
    exact Tri.pure ⟨.cons p q, by simp only [List.map_cons, List.sum_cons]; abel⟩

theorem Tri.times {n : ℕ} {m : Mem β} {out : β → Multiset Block} {P : β → Prop} (hm : ∀ R', R ≤ R' → Tri S R' m fun b R'' => P b ∧ R'' = out b + R') :
    Tri S R (Verif.times n m) fun bs R' => bs.length = n ∧ (∀ b ∈ bs, P b) ∧ R' = (bs.map out).sum + R := by
  induction n generalizing R with
  | zero => exact Tri.pure ⟨rfl, by simp, by simp⟩
  | succ n ih =>
    refine Tri.bind (hm R le_rfl) ?_
    rintro b _ ⟨p, rfl⟩
    refine Tri.bind (ih fun R' hR => hm R' ((Multiset.le_add_left _ _).trans hR)) ?_
    rintro bs _ ⟨q, q', rfl⟩
    refine Tri.pure ⟨by simp [q], ?_, by simp only [List.map_cons, List.sum_cons]; abel⟩
    rintro c hc
    rcases List.mem_cons.1 hc with rfl | hc
    · exact p
    · exact q' c hc

/-- The blocks of a list of lists. -/
def owns (l : List (List Block)) : Multiset Block := (l.map fun o : List Block => (o : Multiset Block)).sum

theorem sum_single (l : List Block) : (l.map fun b => ({b} : Multiset Block)).sum = ↑l := by
  induction l with
  | nil => rfl
  | cons a l ih => rw [List.map_cons, List.sum_cons, ih, Multiset.singleton_add, Multiset.cons_coe]

theorem sum_zip {l : List α} {l' : List β} (hl : l.length = l'.length) (f : α → Multiset Block) (g : β → Multiset Block) :
    ((l.zip l').map fun e => f e.1 + g e.2).sum = (l.map f).sum + (l'.map g).sum := by
  induction l generalizing l' with
  | nil => cases l' with
    | nil => simp
    | cons _ _ => simp at hl
  | cons a l ih => cases l' with
    | nil => simp at hl
    | cons b l' =>
      simp only [List.zip_cons_cons, List.map_cons, List.sum_cons, ih (by simpa using hl)]
      abel

/-- A loop that leaves memory as it is. -/
theorem Tri.each_keep {l : List α} {f : α → Mem β} (hf : ∀ a ∈ l, Tri S R (f a) fun _ R' => R' = R) : Tri S R (Verif.each l f) fun _ R' => R' = R := by
  induction l with
  | nil => exact Tri.pure rfl
  | cons a l ih =>
    refine Tri.bind (hf a (by simp)) ?_
    rintro b _ rfl
    refine Tri.bind (ih fun a ha => hf a (by simp [ha])) ?_
    rintro bs _ rfl
    exact Tri.pure rfl

theorem Tri.times_keep {n : ℕ} {m : Mem β} (hm : Tri S R m fun _ R' => R' = R) : Tri S R (Verif.times n m) fun _ R' => R' = R := by
  induction n with
  | zero => exact Tri.pure rfl
  | succ n ih =>
    refine Tri.bind hm ?_
    rintro b _ rfl
    refine Tri.bind ih ?_
    rintro bs _ rfl
    exact Tri.pure rfl

theorem Tri.allocs (n : ℕ) (w : Way) (v : ℕ) :
    Tri S R (Verif.times n (Verif.alloc w v)) fun bs R' => bs.length = n ∧ (∀ b ∈ bs, b.way = w ∧ b.bytes = v) ∧ R' = ↑bs + R := by
  refine (Tri.times (out := fun b => ({b} : Multiset Block)) (P := fun b => b.way = w ∧ b.bytes = v) fun R' _ => (Tri.alloc w v).conseq ?_).conseq ?_
  · rintro b _ ⟨h1, h2, rfl⟩
    exact ⟨⟨h1, h2⟩, rfl⟩
  · rintro bs _ ⟨h1, h2, rfl⟩
    exact ⟨h1, h2, by rw [sum_single]⟩

theorem Tri.releases {l : List Block} {w : Way} (hw : ∀ b ∈ l, b.way = w) (ht : Splits ↑l R R₀) :
    Tri S R (Verif.each l fun b => Verif.release w b) fun _ R' => R' = R₀ := by
  subst ht
  rw [← sum_single]
  refine (Tri.each (res := fun b => ({b} : Multiset Block)) (out := fun _ => 0) (P := fun _ _ => True) fun b hb R' _ =>
    (Tri.release (.inl (hw b hb)) Splits.here).conseq ?_).conseq ?_
  · rintro _ _ rfl
    exact ⟨trivial, by simp⟩
  · rintro _ _ ⟨_, rfl⟩
    simp

theorem Tri.newObj (shape : List (Way × ℕ)) :
    Tri S R (Verif.newObj shape) fun o R' => o.map (fun b => (b.way, b.bytes)) = shape ∧ R' = ↑o + R := by
  have := Tri.each (S := S) (R := R) (l := shape) (f := fun s => Verif.alloc s.1 s.2) (res := fun _ => 0) (out := fun b => ({b} : Multiset Block))
    (P := fun s b => (b.way, b.bytes) = s) fun s _ R' _ => by
      rw [zero_add]
      exact (Tri.alloc s.1 s.2).conseq fun b R'' h => ⟨Prod.ext h.1 h.2.1, h.2.2⟩
  refine Tri.pre (by simp) (this.conseq ?_)
  rintro o _ ⟨h, rfl⟩
  refine ⟨?_, by rw [sum_single]⟩
  clear this
  induction h with
  | nil => rfl
  | cons h _ ih => rw [List.map_cons, h, ih]

theorem Tri.deleteObj {o : List Block} (ht : Splits ↑o R R₀) : Tri S R (Verif.deleteObj o) fun _ R' => R' = R₀ := by
  subst ht
  rw [← sum_single]
  refine Tri.bind (Tri.each (res := fun b => ({b} : Multiset Block)) (out := fun _ => 0) (P := fun _ _ => True) fun b hb R' _ =>
    (Tri.release (.inl rfl) Splits.here).conseq ?_) ?_
  · rintro _ _ rfl
    exact ⟨trivial, by simp⟩
  · rintro _ _ ⟨_, rfl⟩
    exact Tri.pure (by simp)

theorem Tri.newObjs (n : ℕ) (shape : List (Way × ℕ)) :
    Tri S R (Verif.times n (Verif.newObj shape)) fun bs R' =>
      bs.length = n ∧ (∀ o ∈ bs, o.map (fun b => (b.way, b.bytes)) = shape) ∧ R' = owns bs + R :=
  Tri.times (out := fun o : List Block => (↑o : Multiset Block)) fun _ _ => Tri.newObj shape

theorem Tri.deleteObjs {l : List (List Block)} (ht : Splits (owns l) R R₀) : Tri S R (Verif.each l Verif.deleteObj) fun _ R' => R' = R₀ := by
  subst ht
  unfold owns
  refine (Tri.each (res := fun o : List Block => (↑o : Multiset Block)) (out := fun _ => 0) (P := fun _ _ => True) fun b hb R' _ =>
    (Tri.deleteObj Splits.here).conseq ?_).conseq ?_
  · rintro _ _ rfl
    exact ⟨trivial, by simp⟩
  · rintro _ _ ⟨_, rfl⟩
    simp

/-- A part that leaves memory as it is. -/
def Clean (m : Mem α) : Prop := ∀ S R, Tri S R m fun _ R' => R' = R

theorem Clean.run {m : Mem α} {f : α → Mem β} {Q : β → Multiset Block → Prop} (hm : Clean m) (hf : ∀ a, Tri S R (f a) Q) : Tri S R (m >>= f) Q := by
  refine Tri.bind (hm S R) ?_
  rintro a _ rfl
  exact hf a

/-! ## Messages and transfers -/

theorem clean_bools (n : ℕ) : Clean (boolsMem n) := by
  intro S R
  refine Tri.bind (Tri.alloc _ _) ?_
  rintro b _ ⟨h1, -, rfl⟩
  exact Tri.release (.inl h1) Splits.here

theorem clean_cors (n : ℕ) : Clean (corsMem n) := by
  intro S R
  refine Tri.bind (Tri.alloc _ _) ?_
  rintro b _ ⟨h1, -, rfl⟩
  exact Tri.release (.inl h1) Splits.here

/-- Allocates and names the block. -/
macro "new" b:ident h:ident : tactic => `(tactic| (refine Tri.bind (Tri.alloc _ _) ?_; intro $b R1 hR1; obtain ⟨$h, _, hR2⟩ := hR1; subst hR2))

theorem clean_daBits (n : ℕ) : Clean (daBitsMem n) := by
  intro S R
  unfold daBitsMem
  new bp h1
  new b2 h2
  refine (clean_bools n).run fun _ => ?_
  rel
  exact Tri.release (.inl h2) (by takes)

theorem clean_otSend (n : ℕ) : Clean (otSendMem n) := by
  intro S R
  unfold otSendMem
  new b0 h1
  new b1 h2
  rel
  exact Tri.release (.inl h2) (by takes)

theorem clean_otRecv (n : ℕ) : Clean (otRecvMem n) := by
  intro S R
  unfold otRecvMem
  new b0 h1
  exact Tri.release (.inl h1) (by takes)

theorem clean_bitsumSender (n : ℕ) : Clean (bitsumSenderMem n) := by
  intro S R
  unfold bitsumSenderMem
  new b0 h1
  new b1 h2
  refine (clean_otSend n).run fun _ => ?_
  rel
  exact Tri.release (.inl h1) (by takes)

theorem clean_bitsumReceiver (n : ℕ) : Clean (bitsumReceiverMem n) := by
  intro S R
  unfold bitsumReceiverMem
  new b0 h1
  refine (clean_otRecv n).run fun _ => ?_
  exact Tri.release (.inl h1) (by takes)

/-- The result of a transfer of numbers: the array of rows and the rows. -/
def RowsOf (n v : ℕ) (r : Block × List Block) : Prop :=
  r.1.way = .arr ∧ r.1.bytes = 8 * n ∧ r.2.length = n ∧ ∀ b ∈ r.2, b.way = .arr ∧ b.bytes = 8 * v

theorem tri_intsumSender (n v bits : ℕ) : Tri S R (intsumSenderMem n v bits) fun r R' => RowsOf n v r ∧ R' = {r.1} + (↑r.2 + R) := by
  unfold intsumSenderMem
  refine Tri.bind (Tri.alloc _ _) ?_
  rintro ret _ ⟨h1, h2, rfl⟩
  new b0 h3
  new b1 h4
  refine Tri.bind (Tri.allocs _ _ _) ?_
  rintro rows _ ⟨h5, h6, rfl⟩
  refine (clean_otSend _).run fun _ => ?_
  rel
  rel
  exact Tri.pure ⟨⟨h1, h2, h5, h6⟩, by abel⟩

theorem tri_intsumReceiver (n v bits : ℕ) : Tri S R (intsumReceiverMem n v bits) fun r R' => RowsOf n v r ∧ R' = {r.1} + (↑r.2 + R) := by
  unfold intsumReceiverMem
  new r h3
  new bs h4
  refine Tri.bind (Tri.alloc _ _) ?_
  rintro ret _ ⟨h1, h2, rfl⟩
  refine (clean_otRecv _).run fun _ => ?_
  rel
  refine Tri.bind (Tri.allocs _ _ _) ?_
  rintro rows _ ⟨h5, h6, rfl⟩
  rel
  exact Tri.pure ⟨⟨h1, h2, h5, h6⟩, by abel⟩

/-! ## Operations without a check -/

/-- Reads through a pointer that is in use. -/
macro "use_ptr" : tactic => `(tactic| (refine Tri.bind (Tri.touch (by simp)) ?_; intro _ R1 hR1; subst hR1))

theorem clean_bitSum1 (n : ℕ) : Clean (bitSum1Mem n) := by
  intro S R
  unfold bitSum1Mem
  new sh h1
  use_ptr
  refine (clean_bitsumReceiver n).run fun _ => ?_
  exact Tri.release (.inl h1) (by takes)

theorem clean_bitSum0 (n : ℕ) : Clean (bitSum0Mem n) := by
  intro S R
  unfold bitSum0Mem
  new sh h1
  new va h2
  use_ptr
  refine (clean_bitsumSender n).run fun _ => ?_
  rel
  exact Tri.release (.inl h2) (by takes)

/-- The loop that releases the rows of `int_sum` (server.cpp:427-430, 466-469). -/
theorem tri_rows {l l' : List Block} (hl : l.length = l'.length) (hw : ∀ b ∈ l, b.way = .arr) (hw' : ∀ b ∈ l', b.way = .arr) (ht : R = ↑l + (↑l' + R₀)) :
    Tri S R (Verif.each (l.zip l') fun e => do
      Verif.touch e.2
      Verif.release .arr e.1
      Verif.release .arr e.2) fun _ R' => R' = R₀ := by
  subst ht
  refine Tri.pre (R' := ((l.zip l').map fun e : Block × Block => ({e.1} : Multiset Block) + {e.2}).sum + R₀) ?_ ?_
  · rw [sum_zip hl (fun b => {b}) (fun b => {b}), sum_single, sum_single]
    abel
  refine (Tri.each (out := fun _ => 0) (P := fun _ _ => True) ?_).conseq ?_
  · rintro ⟨a, b⟩ hab R' -
    have h1 := hw a (List.of_mem_zip hab).1
    have h2 := hw' b (List.of_mem_zip hab).2
    rw [add_assoc]
    dsimp only
    use_ptr
    rel
    refine (Tri.release (.inl h2) (by takes)).conseq ?_
    rintro _ _ rfl
    exact ⟨trivial, by simp⟩
  · rintro _ _ ⟨_, rfl⟩
    simp

theorem clean_intSum1 (b n : ℕ) : Clean (intSum1Mem b n) := by
  intro S R
  unfold intSum1Mem
  new sh h1
  refine Tri.bind (Tri.allocs _ _ _) ?_
  rintro rows _ ⟨h2, h3, rfl⟩
  refine Tri.bind (tri_intsumReceiver _ _ _) ?_
  rintro r _ ⟨⟨h4, -, h5, h6⟩, rfl⟩
  refine Tri.bind (tri_rows (R₀ := {r.1} + ({sh} + R)) (h2.trans h5.symm) (fun b hb => (h3 b hb).1) (fun b hb => (h6 b hb).1) (by abel)) ?_
  rintro _ _ rfl
  rel
  exact Tri.release (.inl h4) (by takes)

theorem clean_intSum0 (b n : ℕ) : Clean (intSum0Mem b n) := by
  intro S R
  unfold intSum0Mem
  new sh h1
  new va h7
  refine Tri.bind (Tri.allocs _ _ _) ?_
  rintro rows _ ⟨h2, h3, rfl⟩
  refine Tri.bind (tri_intsumSender _ _ _) ?_
  rintro r _ ⟨⟨h4, -, h5, h6⟩, rfl⟩
  rel
  refine Tri.bind (tri_rows (R₀ := {r.1} + ({sh} + R)) (h2.trans h5.symm) (fun b hb => (h3 b hb).1) (fun b hb => (h6 b hb).1) (by abel)) ?_
  rintro _ _ rfl
  rel
  exact Tri.release (.inl h4) (by takes)

theorem clean_xorOp1 (n : ℕ) : Clean (xorOp1Mem n) := by
  intro S R
  unfold xorOp1Mem
  new sh h1
  new va h2
  refine (clean_bools n).run fun _ => ?_
  rel
  exact Tri.release (.inl h1) (by takes)

theorem clean_xorOp0 (n : ℕ) : Clean (xorOp0Mem n) := by
  intro S R
  unfold xorOp0Mem
  new va h2
  refine (clean_bools n).run fun _ => ?_
  exact Tri.release (.inl h2) (by takes)

theorem tri_maxOp1 {total B n : ℕ} (hS : 8 * (B + 1) ≤ S) : Tri S R (maxOp1Mem total B n) fun _ R' => R' = R := by
  unfold maxOp1Mem
  new sh h1
  refine Tri.bind (Tri.onStack hS) ?_
  rintro _ _ rfl
  new pk h2
  new va h3
  refine (clean_bools n).run fun _ => ?_
  use_ptr
  rel
  rel
  exact Tri.release (.inl h2) (by takes)

theorem tri_maxOp0 {total B n : ℕ} (hS : 16 * (B + 1) ≤ S) : Tri S R (maxOp0Mem total B n) fun _ R' => R' = R := by
  unfold maxOp0Mem
  new sh h1
  refine Tri.bind (Tri.onStack (by omega)) ?_
  rintro _ _ rfl
  new va h3
  use_ptr
  refine (clean_bools n).run fun _ => ?_
  rel
  exact Tri.release (.inl h3) (by takes)

end Verif

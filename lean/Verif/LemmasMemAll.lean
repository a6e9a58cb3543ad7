import Verif.ModelMemAll
import Verif.LemmasMemTurn
import Verif.LemmasMemLin

/-! # Memory of sessions with every operation: lemmas -/

namespace Verif

variable {α β : Type} {S : ℕ} {R : Multiset Block}

/-- Whatever `m` returns satisfies `P`. -/
def Yields (P : α → Prop) (m : Mem α) : Prop := ∀ h a h', m h = some (a, h') → P a

theorem Yields.any (m : Mem α) : Yields (fun _ => True) m := fun _ _ _ _ => trivial

theorem Yields.pure {P : α → Prop} {a : α} (ha : P a) : Yields P (Pure.pure a : Mem α) := by
  intro h b h' e
  obtain rfl : a = b := congrArg Prod.fst (Option.some.inj e)
  exact ha

theorem Yields.bind {P : α → Prop} {Q : β → Prop} {m : Mem α} {f : α → Mem β} (hm : Yields P m) (hf : ∀ a, P a → Yields Q (f a)) : Yields Q (m >>= f) := by
  intro h b h' e
  replace e : (m h).bind (fun x => f x.1 x.2) = some (b, h') := e
  cases hx : m h with
  | none => rw [hx] at e; cases e
  | some x =>
    rw [hx] at e
    exact hf x.1 (hm h x.1 x.2 hx) x.2 b h' e

theorem Yields.after {Q : β → Prop} {m : Mem α} {f : α → Mem β} (hf : ∀ a, Yields Q (f a)) : Yields Q (m >>= f) := Yields.bind (Yields.any m) fun a _ => hf a

theorem Yields.fault {P : α → Prop} : Yields P (Mem.fault : Mem α) := fun _ _ _ e => by cases e

theorem Tri.yields {m : Mem α} {P : α → Prop} {Q : α → Multiset Block → Prop} (ht : Tri S R m Q) (hy : Yields P m) : Tri S R m fun a R' => P a ∧ Q a R' := by
  intro h ok st us
  obtain ⟨a, h', e, ok', st', q⟩ := ht h ok st us
  exact ⟨a, h', e, ok', st', hy h a h' e, q⟩

theorem keeps_roots (N : ℕ) (k : Keep) : Yields (fun k' => k'.store = k.store) (initRootsMem N k) := by
  unfold initRootsMem
  split
  · split
    · exact Yields.pure rfl
    · exact Yields.after fun _ => Yields.after fun _ => Yields.pure rfl
  · exact Yields.after fun _ => Yields.pure rfl

theorem keeps_precomp (shape : ℕ → List (Way × ℕ)) (N : ℕ) (k : Keep) : Yields (fun k' => k'.store = k.store) (getPrecompMem shape N k) := by
  unfold getPrecompMem
  split
  · exact Yields.pure rfl
  · exact Yields.after fun _ => Yields.pure rfl

theorem keeps_snips (shape : ℕ → List (Way × ℕ)) (N z : ℕ) (packets circuits : List (List Block)) (k : Keep) :
    Yields (fun r => r.2.store = k.store) (validateSnipsMem shape N z packets circuits k) := by
  unfold validateSnipsMem
  refine Yields.after fun _ => ?_
  split
  · exact Yields.fault
  refine Yields.bind (keeps_roots N k) fun k1 h1 => Yields.after fun _ => ?_
  refine Yields.bind (keeps_precomp shape N k1) fun k2 h2 => ?_
  iterate 14 refine Yields.after fun _ => ?_
  repeat refine Yields.after fun _ => ?_
  exact Yields.pure (h2.trans h1)

theorem keeps_varRows (shape : ℕ → List (Way × ℕ)) (sv : Bool) (nbits : ℕ) (packets : List (List Block)) (shares : Block) (k : Keep) :
    Yields (fun r => r.2.store = k.store) (varRowsMem shape sv nbits packets shares k) := by
  unfold varRowsMem
  iterate 3 refine Yields.after fun _ => ?_
  refine Yields.bind (keeps_snips shape 2 1 packets _ k) fun r hr => ?_
  obtain ⟨x, k1⟩ := r
  exact Yields.after fun _ => Yields.after fun _ => Yields.pure hr

theorem keeps_var1 (shape : ℕ → List (Way × ℕ)) (nbits : ℕ) (subs : List (Bytes × Bool)) (ord : Map (List Block) → Map (List Block)) (k : Keep) :
    Yields (fun k' => k'.store = k.store) (var1Mem shape nbits subs ord k) := by
  unfold var1Mem
  iterate 7 refine Yields.after fun _ => ?_
  refine Yields.bind (keeps_varRows shape true nbits _ _ k) fun r hr => ?_
  obtain ⟨x, k1⟩ := r
  iterate 10 refine Yields.after fun _ => ?_
  exact Yields.pure hr

theorem keeps_var0 (shape : ℕ → List (Way × ℕ)) (nbits : ℕ) (subs : List (Bytes × Bool)) (ks : List Bytes) (k : Keep) :
    Yields (fun k' => k'.store = k.store) (var0Mem shape nbits subs ks k) := by
  unfold var0Mem
  iterate 9 refine Yields.after fun _ => ?_
  refine Yields.bind (keeps_varRows shape false nbits _ _ k) fun r hr => ?_
  obtain ⟨x, k1⟩ := r
  iterate 9 refine Yields.after fun _ => ?_
  exact Yields.pure hr

theorem keeps_lin1 (strict : Bool) (shape : ℕ → List (Way × ℕ)) (nbits degree N : ℕ) (subs : List (Bytes × Bool)) (ord : Map LinEntry → Map LinEntry) (k : Keep) :
    Yields (fun k' => k'.store = k.store) (lin1Mem strict shape nbits degree N subs ord k) := by
  unfold lin1Mem
  iterate 10 refine Yields.after fun _ => ?_
  refine Yields.bind (keeps_snips shape N _ _ _ k) fun r hr => ?_
  obtain ⟨x, k1⟩ := r
  iterate 12 refine Yields.after fun _ => ?_
  exact Yields.pure hr

theorem keeps_lin0 (strict : Bool) (shape : ℕ → List (Way × ℕ)) (nbits degree N : ℕ) (subs : List (Bytes × Bool)) (ks : List Bytes) (refused : Bool) (k : Keep) :
    Yields (fun k' => k'.store = k.store) (lin0Mem strict shape nbits degree N subs ks refused k) := by
  unfold lin0Mem
  iterate 11 refine Yields.after fun _ => ?_
  refine Yields.bind (keeps_snips shape N _ _ _ k) fun r hr => ?_
  obtain ⟨x, k1⟩ := r
  iterate 13 refine Yields.after fun _ => ?_
  split
  · exact Yields.pure hr
  · iterate 4 refine Yields.after fun _ => ?_
    exact Yields.pure hr

/-- The automatic arrays fit a stack of `S` bytes, and some row is left to check (with none there is undefined behaviour, C56); the keys announced to server 0 are distinct. -/
def AnyJob.Fits (c : StoreCfg) (sv : Bool) (S : ℕ) : AnyJob → Prop
  | .plain j => j.Fits c sv S
  | .var subs ord ks => if sv then (∀ m, (ord m).Perm m) ∧ usable subs ≠ [] else ks.Nodup ∧ ks ≠ []
  | .lin degree _ subs ord ks _ => 8 * linCols degree ≤ S ∧ if sv then (∀ m, (ord m).Perm m) ∧ usable subs ≠ [] else ks.Nodup ∧ ks ≠ []

/-- What an operation leaves behind when the store holds `s` daBits. -/
def AnyJob.loss (c : StoreCfg) (sv : Bool) (s : ℕ) : AnyJob → ℕ
  | .plain j => j.loss c sv s
  | .var subs _ ks => if sv then 24 * (usable subs).length else 24 * ks.length + ((usable subs).filter fun k => k ∉ ks).length * 112
  | .lin degree N subs _ ks refused =>
    if sv then (subs.length - (usable subs).length) * (8 * (2 * linXs degree + linQuad degree)) + (usable subs).length * (8 + 8 * linCols degree)
    else (subs.length - (usable subs).length) * (8 * (2 * linXs degree + linQuad degree)) + ks.length * (8 + 8 * linCols degree) +
        ((usable subs).filter fun k => k ∉ ks).length * (8 * (2 * linXs degree + linQuad degree) + (88 + 8 * (linMuls degree + N))) +
        if refused then 8 * (degree + linQuad degree) + 8 * degree else 0

/-- What the store holds after it. -/
def AnyJob.level (c : StoreCfg) (s : ℕ) : AnyJob → ℕ
  | .plain j => j.level c s
  | _ => s

theorem tri_anyTurn (shape : ℕ → List (Way × ℕ)) (c : StoreCfg) (sv : Bool) (j : AnyJob) (k : Keep) (hj : j.Fits c sv S) :
    Tri S (k.owned + R) (anyTurnMem false shape c sv j k) fun k' R' => k'.store.length = j.level c (updateLevel c k.store.length) ∧
      ∃ L, bytesOf L = updateLoss c sv k.store.length + j.loss c sv (updateLevel c k.store.length) ∧ R' = k'.owned + (L + R) := by
  have glue : ∀ (m : Keep → Mem Keep) (b : ℕ), (∀ k, Yields (fun k' => k'.store = k.store) (m k)) →
      (∀ k R, Tri S (k.owned + R) (m k) fun k' R' => ∃ L, bytesOf L = b ∧ R' = k'.owned + (L + R)) →
      Tri S (k.owned + R) (maybeUpdateMem c sv k >>= m) fun k' R' => k'.store.length = updateLevel c k.store.length ∧
        ∃ L, bytesOf L = updateLoss c sv k.store.length + b ∧ R' = k'.owned + (L + R) := by
    intro m b hy hm
    refine Tri.bind (tri_maybeUpdate c sv k) ?_
    rintro k1 _ ⟨h1, L, h2, rfl⟩
    refine ((hm k1 (L + R)).yields (hy k1)).conseq ?_
    rintro k2 _ ⟨h3, L', h4, rfl⟩
    exact ⟨by rw [h3, h1], L' + L, by rw [bytesOf_add, h4, h2]; omega, by rw [add_assoc]⟩
  cases j with
  | plain j => exact tri_turn c sv j k hj
  | var subs ord ks =>
    cases sv with
    | true => exact glue _ _ (fun k => keeps_var1 shape c.nbits subs ord k) fun k R => tri_var1 shape c.nbits k hj.1 hj.2
    | false => exact glue _ _ (fun k => keeps_var0 shape c.nbits subs ks k) fun k R => tri_var0 shape c.nbits k hj.1 hj.2
  | lin degree N subs ord ks refused =>
    cases sv with
    | true =>
      refine glue _ _ (fun k => keeps_lin1 false shape c.nbits degree N subs ord k) fun k R => (tri_lin1 shape c.nbits degree N k hj.1 hj.2.1 hj.2.2).conseq ?_
      rintro k' R' ⟨L, h1, h2⟩
      exact ⟨L, by rw [h1, convertLoss, arraysBytes]; simp only [AnyJob.loss, if_true]; ring, h2⟩
    | false =>
      refine glue _ _ (fun k => keeps_lin0 false shape c.nbits degree N subs ks refused k) fun k R =>
        (tri_lin0 shape c.nbits degree N refused k hj.1 hj.2.1 hj.2.2).conseq ?_
      rintro k' R' ⟨L, h1, h2⟩
      refine ⟨L, ?_, h2⟩
      rw [h1, convertLoss, arraysBytes, packetBytes, accumLoss]
      simp only [AnyJob.loss, Bool.false_eq_true, if_false]
      ring

/-- The loss of a session that starts with `s` daBits in the store. -/
def anyLoss (c : StoreCfg) (sv : Bool) : List AnyJob → ℕ → ℕ
  | [], _ => 0
  | j :: js, s => updateLoss c sv s + j.loss c sv (updateLevel c s) + anyLoss c sv js (j.level c (updateLevel c s))

theorem tri_anyTurns (shape : ℕ → List (Way × ℕ)) (c : StoreCfg) (sv : Bool) : ∀ (js : List AnyJob) (k : Keep) (_ : ∀ j ∈ js, j.Fits c sv S) (R : Multiset Block),
    Tri S (k.owned + R) (anyTurnsMem false shape c sv js k) fun k' R' => ∃ L, bytesOf L = anyLoss c sv js k.store.length ∧ R' = k'.owned + (L + R)
  | [], k, _, R => Tri.pure ⟨0, rfl, by simp⟩
  | j :: js, k, h, R => by
    refine Tri.bind (tri_anyTurn shape c sv j k (h j (by simp))) ?_
    rintro k1 _ ⟨h1, L, h2, rfl⟩
    refine (tri_anyTurns shape c sv js k1 (fun j hj => h j (by simp [hj])) _).conseq ?_
    rintro k' _ ⟨L', h3, rfl⟩
    exact ⟨L' + L, by rw [bytesOf_add, h3, h2, h1, anyLoss]; omega, by rw [add_assoc]⟩

/-- The session is defined also for the allocator that tells `delete` from `delete[]`, as long as there is no LINREG in it. -/
def AnyJob.NoLin : AnyJob → Prop
  | .lin .. => False
  | _ => True

theorem anyTurn_strict (shape : ℕ → List (Way × ℕ)) (c : StoreCfg) (sv : Bool) (j : AnyJob) (hj : j.NoLin) (k : Keep) :
    anyTurnMem true shape c sv j k = anyTurnMem false shape c sv j k := by
  cases j with
  | plain j => rfl
  | var subs ord ks => rfl
  | lin => exact hj.elim

theorem anyTurns_strict (shape : ℕ → List (Way × ℕ)) (c : StoreCfg) (sv : Bool) : ∀ (js : List AnyJob) (_ : ∀ j ∈ js, j.NoLin) (k : Keep),
    anyTurnsMem true shape c sv js k = anyTurnsMem false shape c sv js k
  | [], _, _ => rfl
  | j :: js, h, k => by
    unfold anyTurnsMem
    rw [anyTurn_strict shape c sv j (h j (by simp)) k]
    congr 1
    funext k1
    exact anyTurns_strict shape c sv js (fun j hj => h j (by simp [hj])) k1

end Verif

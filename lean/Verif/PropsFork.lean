import Verif.ModelFork
import Mathlib.Tactic.Ring
import Mathlib.Algebra.Order.BigOperators.Group.List
import Mathlib.Tactic.Linarith

/-!
# C51: two-way exchanges with bounded buffers
-/

namespace Verif

/-- Exchange the roles. -/
def XSys.swap (s : XSys) : XSys := ⟨s.b, s.a, s.wba, s.wab⟩

theorem XStep.swap {f : Bool} {cap : ℕ} {s t : XSys} (h : XStep f cap s t) : XStep f cap s.swap t.swap := by
  cases h with
  | left a b a' w v w' v' h => exact .right _ _ _ _ _ _ _ h
  | right a b b' w v w' v' h => exact .left _ _ _ _ _ _ _ h

/-! ## Termination -/

/-- Bytes still to be sent. -/
def Side.toSend (s : Side) : ℕ := s.out.length + (s.later.map fun r => r.1.length).sum

/-- Decreases with every step. -/
def XSys.work (s : XSys) : ℕ :=
  2 * s.a.toSend + s.a.later.length + 2 * s.b.toSend + s.b.later.length + s.wab.length + s.wba.length

theorem sideStep_work {f : Bool} {cap : ℕ} {a a' : Side} {w v w' v' : Bytes} (h : SideStep f cap (a, w, v) (a', w', v')) :
    2 * a'.toSend + a'.later.length + w'.length + v'.length < 2 * a.toSend + a.later.length + w.length + v.length := by
  cases h with
  | send x out want later log w v hx h =>
    have : 0 < x.length := List.length_pos_of_ne_nil hx
    simp only [Side.toSend, List.length_append]; omega
  | recv out y want later log w v hy h hf =>
    have : 0 < y.length := List.length_pos_of_ne_nil hy
    simp only [Side.toSend, List.length_append]; omega
  | next m n later log w v =>
    simp only [Side.toSend, List.length_nil, List.map_cons, List.sum_cons, List.length_cons]; omega

theorem xStep_work {f : Bool} {cap : ℕ} {s t : XSys} (h : XStep f cap s t) : t.work < s.work := by
  cases h with
  | left a b a' w v w' v' h => have := sideStep_work h; simp only [XSys.work]; omega
  | right a b b' w v w' v' h => have := sideStep_work h; simp only [XSys.work]; omega

/-- C51: every schedule ends, forked or not. -/
theorem C51_terminates (f : Bool) (cap : ℕ) : ¬ ∃ r : ℕ → XSys, ∀ i, XStep f cap (r i) (r (i + 1)) := by
  rintro ⟨r, h⟩
  have : ∀ i, (r i).work + i ≤ (r 0).work := by
    intro i
    induction i with
    | zero => simp
    | succ i ih => have := xStep_work (h i); omega
  have := this ((r 0).work + 1)
  omega

/-! ## Progress with fork -/

/-- What one server has received, what is under way and what is still to be sent. -/
def Flow (total : Bytes) (src dst : Side) (w : Bytes) : Prop := dst.log ++ w ++ src.out ++ (src.later.map (·.1)).flatten = total

/-- The part of a list of exchanges that a server still has to do, seen from server `a` and from server `b`. -/
def asA (rs : List (Bytes × Bytes)) : List (Bytes × ℕ) := rs.map fun r => (r.1, r.2.length)
/-- Seen from server `b`. -/
def asB (rs : List (Bytes × Bytes)) : List (Bytes × ℕ) := rs.map fun r => (r.2, r.1.length)

/-- One of the two messages has at most `K` bytes. -/
def Small (K : ℕ) (x : Bytes × Bytes) : Prop := x.1.length ≤ K ∨ x.2.length ≤ K

theorem small_swap {K : ℕ} {l l' : List (Bytes × Bytes)} (h : ∀ x ∈ l, Small K x) (e : l' = l.map Prod.swap) : ∀ x ∈ l', Small K x := by
  subst e
  intro x hx
  obtain ⟨y, hy, rfl⟩ := List.mem_map.1 hx
  exact (h y hy).symm

/-- Where the two servers are: in the same exchange, or one of them ahead. It can be ahead by more than one exchange only through exchanges in which
the other one sends nothing (`mid`). In the same exchange one of the two waits for at most `K` bytes. -/
inductive Where (K : ℕ) (s : XSys) : Prop
  | same (rs : List (Bytes × Bytes)) (la : s.a.later = asA rs) (lb : s.b.later = asB rs)
      (hab : s.wab.length + s.a.out.length = s.b.want) (hba : s.wba.length + s.b.out.length = s.a.want)
      (hk : s.b.want ≤ K ∨ s.a.want ≤ K) (hr : ∀ x ∈ rs, Small K x) : Where K s
  | bAhead (mid : List (Bytes × Bytes)) (r : Bytes × Bytes) (rs : List (Bytes × Bytes)) (la : s.a.later = asA (mid ++ r :: rs)) (lb : s.b.later = asB rs)
      (hm : ∀ x ∈ mid, x.1 = []) (hw : s.wab = []) (ho : s.a.out = []) (hn : s.b.want = r.1.length)
      (hba : s.wba.length + s.b.out.length = s.a.want + (mid.map fun r => r.2.length).sum + r.2.length) (hl : s.b.out.length ≤ r.2.length)
      (hr : ∀ x ∈ mid ++ r :: rs, Small K x) : Where K s
  | aAhead (mid : List (Bytes × Bytes)) (r : Bytes × Bytes) (rs : List (Bytes × Bytes)) (lb : s.b.later = asB (mid ++ r :: rs)) (la : s.a.later = asA rs)
      (hm : ∀ x ∈ mid, x.2 = []) (hw : s.wba = []) (ho : s.b.out = []) (hn : s.a.want = r.2.length)
      (hab : s.wab.length + s.a.out.length = s.b.want + (mid.map fun r => r.1.length).sum + r.1.length) (hl : s.a.out.length ≤ r.1.length)
      (hr : ∀ x ∈ mid ++ r :: rs, Small K x) : Where K s

theorem asA_swap (rs : List (Bytes × Bytes)) : asA (rs.map Prod.swap) = asB rs := by simp [asA, asB]
theorem asB_swap (rs : List (Bytes × Bytes)) : asB (rs.map Prod.swap) = asA rs := by simp [asA, asB]

theorem Where.swap {K : ℕ} {s : XSys} (h : Where K s) : Where K s.swap := by
  cases h with
  | same rs la lb hab hba hk hr => exact .same (rs.map Prod.swap) (lb.trans (asA_swap rs).symm) (la.trans (asB_swap rs).symm) hba hab hk.symm (small_swap hr rfl)
  | bAhead mid r rs la lb hm hw ho hn hba hl hr =>
    refine .aAhead (mid.map Prod.swap) r.swap (rs.map Prod.swap) (la.trans ?_) (lb.trans (asA_swap rs).symm) ?_ hw ho hn (Eq.trans hba ?_) hl (small_swap hr (by simp))
    · rw [← asB_swap]; simp
    · intro x hx; obtain ⟨y, hy, rfl⟩ := List.mem_map.1 hx; exact hm y hy
    · rw [List.map_map]; rfl
  | aAhead mid r rs lb la hm hw ho hn hab hl hr =>
    refine .bAhead (mid.map Prod.swap) r.swap (rs.map Prod.swap) (lb.trans ?_) (la.trans (asB_swap rs).symm) ?_ hw ho hn (Eq.trans hab ?_) hl (small_swap hr (by simp))
    · rw [← asA_swap]; simp
    · intro x hx; obtain ⟨y, hy, rfl⟩ := List.mem_map.1 hx; exact hm y hy
    · rw [List.map_map]; rfl

theorem asA_cons {m : Bytes} {n : ℕ} {l : List (Bytes × ℕ)} {rs : List (Bytes × Bytes)} (h : (m, n) :: l = asA rs) :
    ∃ r rs', rs = r :: rs' ∧ r.1 = m ∧ r.2.length = n ∧ l = asA rs' := by
  cases rs with
  | nil => cases h
  | cons r rs =>
    simp only [asA, List.map_cons, List.cons.injEq, Prod.mk.injEq] at h
    exact ⟨r, rs, rfl, h.1.1.symm, h.1.2.symm, h.2⟩

theorem where_left {K : ℕ} {f : Bool} {cap : ℕ} {a b a' : Side} {w v w' v' : Bytes} (h : SideStep f cap (a, w, v) (a', w', v')) (hs : Where K ⟨a, b, w, v⟩) :
    Where K ⟨a', b, w', v'⟩ := by
  cases h with
  | send x out want later log w v hx h =>
    have hx : 0 < x.length := List.length_pos_of_ne_nil hx
    cases hs with
    | same rs la lb hab hba hk hr => exact .same rs la lb (by simp at hab ⊢; omega) hba hk hr
    | bAhead mid r rs la lb hm hw ho hn hba hl hr => simp at ho; simp [ho] at hx
    | aAhead mid r rs lb la hm hw ho hn hab hl hr => exact .aAhead mid r rs lb la hm hw ho hn (by simp at hab ⊢; omega) (by simp at hl ⊢; omega) hr
  | recv out y want later log w v hy h hf =>
    have hy : 0 < y.length := List.length_pos_of_ne_nil hy
    cases hs with
    | same rs la lb hab hba hk hr => exact .same rs la lb hab (by simp at hba ⊢; omega) (by simp at hk ⊢; omega) hr
    | bAhead mid r rs la lb hm hw ho hn hba hl hr => exact .bAhead mid r rs la lb hm hw ho hn (by simp at hba ⊢; omega) hl hr
    | aAhead mid r rs lb la hm hw ho hn hab hl hr => simp at hw; simp [hw] at hy
  | next m n later log w v =>
    cases hs with
    | same rs la lb hab hba hk hr =>
      obtain ⟨r, rs, rfl, rfl, rfl, la'⟩ := asA_cons la
      have hba : v.length + b.out.length = 0 := hba
      have hab : w.length + 0 = b.want := hab
      refine .aAhead [] r rs lb la' (by simp) (List.eq_nil_of_length_eq_zero ?_) (List.eq_nil_of_length_eq_zero ?_) rfl ?_ (le_refl _) hr
      · show v.length = 0; omega
      · show b.out.length = 0; omega
      · show w.length + r.1.length = b.want + 0 + r.1.length; omega
    | bAhead mid r rs la lb hm hw ho hn hba hl hr =>
      cases mid with
      | nil =>
        obtain ⟨r', rs', e, rfl, rfl, la'⟩ := asA_cons la
        cases e
        have hw : w = [] := hw
        have hba : v.length + b.out.length = 0 + 0 + r.2.length := hba
        refine .same rs la' lb ?_ ?_ ?_ (fun x hx => hr x (List.mem_cons_of_mem _ hx))
        · show w.length + r.1.length = b.want; rw [hw]; simpa using hn.symm
        · show v.length + b.out.length = r.2.length; omega
        · show b.want ≤ K ∨ r.2.length ≤ K
          rw [show b.want = r.1.length from hn]
          exact hr r (List.mem_cons_self ..)
      | cons q mid =>
        obtain ⟨r', rs', e, rfl, rfl, la'⟩ := asA_cons la
        cases e
        refine .bAhead mid r rs la' lb (fun x hx => hm x (List.mem_cons_of_mem _ hx)) hw (hm q (List.mem_cons_self ..)) hn ?_ hl
          (fun x hx => hr x (List.mem_cons_of_mem _ hx))
        have hba : v.length + b.out.length = 0 + ((q :: mid).map fun r => r.2.length).sum + r.2.length := hba
        show v.length + b.out.length = q.2.length + _ + _
        rw [List.map_cons, List.sum_cons] at hba
        omega
    | aAhead mid r rs lb la hm hw ho hn hab hl hr =>
      obtain ⟨r', rs, rfl, rfl, rfl, la'⟩ := asA_cons la
      have hn : 0 = r.2.length := hn
      refine .aAhead (mid ++ [r]) r' rs (lb.trans (by simp)) la' ?_ hw ho rfl ?_ (le_refl _) (by simpa using hr)
      · intro x hx
        rcases List.mem_append.1 hx with h | h
        · exact hm x h
        · rw [List.mem_singleton.1 h]; exact List.eq_nil_of_length_eq_zero hn.symm
      · have hab : w.length + 0 = b.want + (mid.map fun r => r.1.length).sum + r.1.length := hab
        show w.length + r'.1.length = b.want + ((mid ++ [r]).map fun r => r.1.length).sum + r'.1.length
        rw [List.map_append, List.sum_append]
        simp
        omega

theorem flow_side {f : Bool} {cap : ℕ} {T U : Bytes} {a b a' : Side} {w v w' v' : Bytes} (h : SideStep f cap (a, w, v) (a', w', v'))
    (h1 : Flow T a b w) (h2 : Flow U b a v) : Flow T a' b w' ∧ Flow U b a' v' := by
  unfold Flow at *
  cases h with
  | send x out want later log w v hx h => exact ⟨by simpa using h1, h2⟩
  | recv out y want later log w v hy h hf => exact ⟨h1, by simpa using h2⟩
  | next m n later log w v => exact ⟨by simpa using h1, h2⟩

/-- What holds in every reachable state. -/
structure XInv (K : ℕ) (T U : Bytes) (s : XSys) : Prop where
  loc : Where K s
  fab : Flow T s.a s.b s.wab
  fba : Flow U s.b s.a s.wba

theorem xInv_reach {K : ℕ} {f : Bool} {cap : ℕ} (rounds : List (Bytes × Bytes)) (hr : ∀ x ∈ rounds, Small K x) {s : XSys} (h : XSteps f cap (xStart rounds) s) :
    XInv K (rounds.map (·.1)).flatten (rounds.map (·.2)).flatten s := by
  induction h with
  | refl =>
    refine ⟨.same rounds rfl rfl rfl rfl (Or.inl (Nat.zero_le _)) hr, ?_, ?_⟩
    · simp only [Flow, xStart, List.nil_append, List.map_map]; rfl
    · simp only [Flow, xStart, List.nil_append, List.map_map]; rfl
  | tail _ h ih =>
    obtain ⟨l, f1, f2⟩ := ih
    cases h with
    | left a b a' w v w' v' h =>
      obtain ⟨g1, g2⟩ := flow_side h f1 f2
      exact ⟨where_left h l, g1, g2⟩
    | right a b b' w v w' v' h =>
      obtain ⟨g1, g2⟩ := flow_side h f2 f1
      exact ⟨(where_left h l.swap).swap, g2, g1⟩

/-- If a server has something to send and the buffer is not full it can move. -/
theorem can_send {f : Bool} {cap : ℕ} {a b : Side} {w v : Bytes} (ho : a.out ≠ []) (hw : w.length < cap) : ∃ t, XStep f cap ⟨a, b, w, v⟩ t := by
  obtain ⟨out, want, later, log⟩ := a
  cases out with
  | nil => exact absurd rfl ho
  | cons x out => exact ⟨_, .left _ _ _ _ _ _ _ (.send [x] out want later log w v (by simp) (by simp; omega))⟩

/-- If a parent wants bytes and there are some it can move (without fork: once it has sent everything). -/
theorem can_recv {f : Bool} {cap : ℕ} {a b : Side} {w v : Bytes} (hn : 0 < a.want) (hv : v ≠ []) (hf : f = true ∨ a.out = []) :
    ∃ t, XStep f cap ⟨a, b, w, v⟩ t := by
  obtain ⟨out, want, later, log⟩ := a
  cases v with
  | nil => exact absurd rfl hv
  | cons y v => exact ⟨_, .left _ _ _ _ _ _ _ (.recv out [y] want later log w v (by simp) hn hf)⟩

/-- If an exchange is over the next one can start. -/
theorem can_next {f : Bool} {cap : ℕ} {a b : Side} {w v : Bytes} (ho : a.out = []) (hn : a.want = 0) (hl : a.later ≠ []) :
    ∃ t, XStep f cap ⟨a, b, w, v⟩ t := by
  obtain ⟨out, want, later, log⟩ := a
  dsimp only at ho hn
  subst ho hn
  cases later with
  | nil => exact absurd rfl hl
  | cons r later => exact ⟨_, .left _ _ _ _ _ _ _ (.next r.1 r.2 later log w v)⟩

theorem stuck_swap {f : Bool} {cap : ℕ} {s : XSys} (h : XStuck f cap s) : XStuck f cap s.swap := fun _ ht => h _ ht.swap

/-- A server that is behind can move. -/
theorem behind_moves {f : Bool} {cap : ℕ} {s : XSys} (hst : XStuck f cap s) {mid : List (Bytes × Bytes)} {r : Bytes × Bytes} {rs : List (Bytes × Bytes)}
    (la : s.a.later = asA (mid ++ r :: rs)) (ho : s.a.out = [])
    (hba : s.wba.length + s.b.out.length = s.a.want + (mid.map fun r => r.2.length).sum + r.2.length) (hl : s.b.out.length ≤ r.2.length) : False := by
  by_cases hn : s.a.want = 0
  · obtain ⟨t, ht⟩ := can_next (f := f) (cap := cap) (b := s.b) (w := s.wab) (v := s.wba) ho hn (by rw [la]; simp [asA])
    exact hst t ht
  · obtain ⟨t, ht⟩ := can_recv (f := f) (cap := cap) (b := s.b) (w := s.wab) (v := s.wba) (a := s.a) (Nat.pos_of_ne_zero hn) (by
      intro h
      rw [h] at hba
      simp only [List.length_nil] at hba
      omega) (Or.inr ho)
    exact hst t ht

/-- In the same exchange, a server with bytes left to send faces a full buffer and a peer that does not receive. -/
theorem same_blocked {f : Bool} {cap : ℕ} (hc : 0 < cap) {s : XSys} (hst : XStuck f cap s) (hab : s.wab.length + s.a.out.length = s.b.want)
    (ho : s.a.out ≠ []) : cap ≤ s.wab.length ∧ f = false ∧ s.b.out ≠ [] := by
  have hfull : cap ≤ s.wab.length := by
    by_contra h
    obtain ⟨t, ht⟩ := can_send (f := f) (cap := cap) (b := s.b) (w := s.wab) (v := s.wba) ho (by omega)
    exact hst t ht
  have hne : s.wab ≠ [] := by intro h; rw [h] at hfull; simp at hfull; omega
  have hpos : 0 < s.b.want := by omega
  have hnot : ¬ (f = true ∨ s.b.out = []) := by
    intro h
    obtain ⟨t, ht⟩ := can_recv (f := f) (cap := cap) (a := s.b) (b := s.a) (w := s.wba) (v := s.wab) hpos hne h
    exact stuck_swap hst t ht
  rw [not_or] at hnot
  exact ⟨hfull, by simpa using hnot.1, hnot.2⟩

/-- Once everything is sent nothing can block. -/
theorem same_sent {f : Bool} {cap : ℕ} {s : XSys} (hst : XStuck f cap s) {rs : List (Bytes × Bytes)} (la : s.a.later = asA rs) (lb : s.b.later = asB rs)
    (hab : s.wab.length + s.a.out.length = s.b.want) (hba : s.wba.length + s.b.out.length = s.a.want) (hoa : s.a.out = []) (hob : s.b.out = []) :
    s.a.want = 0 ∧ s.b.want = 0 ∧ s.wab = [] ∧ s.wba = [] ∧ s.a.later = [] ∧ s.b.later = [] := by
  rw [hoa] at hab
  rw [hob] at hba
  simp only [List.length_nil, Nat.add_zero] at hab hba
  have hwa : s.a.want = 0 := by
    by_contra hn
    obtain ⟨t, ht⟩ := can_recv (f := f) (cap := cap) (a := s.a) (b := s.b) (w := s.wab) (v := s.wba) (by omega) (by intro h; rw [h] at hba; simp at hba; omega) (Or.inr hoa)
    exact hst t ht
  have hwb : s.b.want = 0 := by
    by_contra hn
    obtain ⟨t, ht⟩ := can_recv (f := f) (cap := cap) (a := s.b) (b := s.a) (w := s.wba) (v := s.wab) (by omega) (by intro h; rw [h] at hab; simp at hab; omega) (Or.inr hob)
    exact stuck_swap hst t ht
  have hl : rs = [] := by
    by_contra hne
    obtain ⟨t, ht⟩ := can_next (f := f) (cap := cap) (a := s.a) (b := s.b) (w := s.wab) (v := s.wba) hoa hwa (by rw [la]; simpa [asA] using hne)
    exact hst t ht
  subst hl
  exact ⟨hwa, hwb, List.eq_nil_of_length_eq_zero (by omega), List.eq_nil_of_length_eq_zero (by omega), la, lb⟩

theorem xDone_of {K : ℕ} {rounds : List (Bytes × Bytes)} {s : XSys} (h : XInv K (rounds.map (·.1)).flatten (rounds.map (·.2)).flatten s) (hoa : s.a.out = [])
    (hob : s.b.out = []) (e : s.a.want = 0 ∧ s.b.want = 0 ∧ s.wab = [] ∧ s.wba = [] ∧ s.a.later = [] ∧ s.b.later = []) : s = xDone rounds := by
  obtain ⟨⟨oa, wa, la, ga⟩, ⟨ob, wb, lb, gb⟩, w, v⟩ := s
  obtain ⟨e1, e2, e3, e4, e5, e6⟩ := e
  dsimp only at *
  subst e1 e2 e3 e4 e5 e6 hoa hob
  obtain ⟨-, f1, f2⟩ := h
  simp only [Flow, List.append_nil, List.map_nil, List.flatten_nil] at f1 f2
  rw [xDone, ← f1, ← f2]

/-- A stopped execution is finished, or both servers are blocked in a send in the same exchange. -/
theorem stuck_cases {f : Bool} {cap K : ℕ} (hc : 0 < cap) (rounds : List (Bytes × Bytes)) (hr : ∀ x ∈ rounds, Small K x) {s : XSys}
    (h : XSteps f cap (xStart rounds) s) (hst : XStuck f cap s) : s = xDone rounds ∨ (f = false ∧ cap < K) := by
  have inv := xInv_reach rounds hr h
  cases inv.loc with
  | same rs la lb hab hba hk hr =>
    by_cases hoa : s.a.out = []
    · by_cases hob : s.b.out = []
      · exact Or.inl (xDone_of inv hoa hob (same_sent hst la lb hab hba hoa hob))
      · exact absurd hoa (same_blocked hc (stuck_swap hst) (s := s.swap) hba hob).2.2
    · obtain ⟨h1, hf, hob⟩ := same_blocked hc hst hab hoa
      obtain ⟨h2, -, -⟩ := same_blocked hc (stuck_swap hst) (s := s.swap) hba hob
      have h2 : cap ≤ s.wba.length := h2
      have p1 : 0 < s.a.out.length := List.length_pos_of_ne_nil hoa
      have p2 : 0 < s.b.out.length := List.length_pos_of_ne_nil hob
      exact Or.inr ⟨hf, by omega⟩
  | bAhead mid r rs la lb hm hw ho hn hba hl hr => exact (behind_moves hst la ho hba hl).elim
  | aAhead mid r rs lb la hm hw ho hn hab hl hr =>
    refine (behind_moves (s := s.swap) (mid := mid.map Prod.swap) (r := r.swap) (rs := rs.map Prod.swap) (stuck_swap hst) (lb.trans ?_) ho (Eq.trans hab ?_) hl).elim
    · rw [← asA_swap]; simp
    · rw [List.map_map]; rfl

theorem small_sum (rounds : List (Bytes × Bytes)) : ∀ x ∈ rounds, Small (rounds.map fun r => r.1.length).sum x := fun x hx =>
  Or.inl (List.le_sum_of_mem (List.mem_map.2 ⟨x, hx, rfl⟩))

/-- C51. With fork, for any sequence of exchanges, any message lengths (also 0), any buffer capacity of at least one byte, any sizes of the single
transfers and any schedule: an execution stops only when both servers have received all of the other's messages, byte for byte, with both buffers empty.
Together with `C51_terminates`: it always gets there. -/
theorem C51_fork_no_deadlock {cap : ℕ} (hc : 0 < cap) (rounds : List (Bytes × Bytes)) {s : XSys} (h : XSteps true cap (xStart rounds) s)
    (hst : XStuck true cap s) : s = xDone rounds := by
  rcases stuck_cases hc rounds (small_sum rounds) h hst with h | h
  · exact h
  · simp at h

/-! ## Without fork -/

/-- C51: without fork the exchanges still always complete if in each of them one of the two messages fits into the buffer. -/
theorem C51_no_fork_small {cap : ℕ} (hc : 0 < cap) (rounds : List (Bytes × Bytes)) (hr : ∀ x ∈ rounds, x.1.length ≤ cap ∨ x.2.length ≤ cap) {s : XSys}
    (h : XSteps false cap (xStart rounds) s) (hst : XStuck false cap s) : s = xDone rounds := by
  rcases stuck_cases hc rounds hr h hst with h | h
  · exact h
  · omega

/-- C51: without fork, if both messages of the first exchange are longer than the buffer, every schedule ends in a deadlock: an execution that has
stopped is one in which both servers are blocked in their sends with both buffers full, and nobody has received a byte. -/
theorem C51_no_fork_deadlock {cap : ℕ} (m0 m1 : Bytes) (later : List (Bytes × Bytes)) (h0 : cap < m0.length) (h1 : cap < m1.length)
    {s : XSys} (h : XSteps false cap (xStart ((m0, m1) :: later)) s) (hst : XStuck false cap s) :
    s.a.out ≠ [] ∧ s.b.out ≠ [] ∧ s.wab.length = cap ∧ s.wba.length = cap ∧ s.a.log = [] ∧ s.b.log = [] := by
  -- `pre`: has not started the first exchange; `run`: is sending its message
  let Loc (m : Bytes) (n : ℕ) (a : Side) (w : Bytes) : Prop :=
    a.log = [] ∧ w.length ≤ cap ∧ ((a.out = [] ∧ a.want = 0 ∧ w = [] ∧ a.later ≠ [] ∧ ∃ l, a.later = (m, n) :: l) ∨ (a.want = n ∧ w.length + a.out.length = m.length))
  have key : ∀ {a b a' : Side} {w v w' v' m m' : Bytes}, cap < m.length → cap < m'.length → SideStep false cap (a, w, v) (a', w', v') →
      Loc m m'.length a w → Loc m' m.length b v → Loc m m'.length a' w' ∧ Loc m' m.length b v' := by
    intro a b a' w v w' v' m m' hm hm' hs ha hb
    cases hs with
    | send x out want later log w v hx hcap =>
      refine ⟨⟨ha.1, by simpa using hcap, ?_⟩, hb⟩
      rcases ha.2.2 with ⟨ho, -⟩ | ⟨hw, hl⟩
      · simp at ho; exact absurd ho.1 hx
      · right; exact ⟨hw, by simp at hl ⊢; omega⟩
    | recv out y want later log w v hy hcap hf =>
      exfalso
      have ho : out = [] := by simpa using hf
      have hy : 0 < y.length := List.length_pos_of_ne_nil hy
      rcases ha.2.2 with ⟨-, hw, -⟩ | ⟨hw, hl⟩
      · simp only at hw; omega
      · have := ha.2.1
        simp only [ho, List.length_nil, Nat.add_zero] at hl
        omega
    | next m2 n later log w v =>
      refine ⟨⟨ha.1, ha.2.1, ?_⟩, hb⟩
      rcases ha.2.2 with ⟨-, -, hw, -, l, hl⟩ | ⟨hw, hl⟩
      · simp only [List.cons.injEq, Prod.mk.injEq] at hl
        obtain ⟨⟨rfl, rfl⟩, -⟩ := hl
        right; exact ⟨rfl, by rw [hw]; simp⟩
      · have := ha.2.1
        simp only [List.length_nil, Nat.add_zero] at hl
        omega
  have inv : Loc m0 m1.length s.a s.wab ∧ Loc m1 m0.length s.b s.wba := by
    clear hst
    induction h with
    | refl =>
      refine ⟨⟨rfl, Nat.zero_le _, Or.inl ⟨rfl, rfl, rfl, by simp [xStart], _, rfl⟩⟩, ⟨rfl, Nat.zero_le _, Or.inl ⟨rfl, rfl, rfl, by simp [xStart], _, rfl⟩⟩⟩
    | tail _ h ih =>
      cases h with
      | left a b a' w v w' v' h => exact key h0 h1 h ih.1 ih.2
      | right a b b' w v w' v' h => exact (key h1 h0 h ih.2 ih.1).symm
  obtain ⟨⟨ga, ca, la⟩, ⟨gb, cb, lb⟩⟩ := inv
  have out : ∀ {s : XSys}, XStuck false cap s → ∀ {m : Bytes} {n : ℕ}, cap < m.length → Loc m n s.a s.wab → s.a.out ≠ [] ∧ s.wab.length = cap := by
    intro s hst m n hm ⟨_, hca, hl⟩
    rcases hl with ⟨ho, hn, -, hne, -⟩ | ⟨-, hl⟩
    · obtain ⟨t, ht⟩ := can_next (f := false) (cap := cap) (a := s.a) (b := s.b) (w := s.wab) (v := s.wba) ho hn hne
      exact (hst t ht).elim
    · have ho : s.a.out ≠ [] := by intro h; rw [h] at hl; simp at hl; omega
      refine ⟨ho, ?_⟩
      by_contra hne
      obtain ⟨t, ht⟩ := can_send (f := false) (cap := cap) (a := s.a) (b := s.b) (w := s.wab) (v := s.wba) ho (by omega)
      exact hst t ht
  obtain ⟨a1, a2⟩ := out hst h0 ⟨ga, ca, la⟩
  obtain ⟨b1, b2⟩ := out (s := s.swap) (stuck_swap hst) h1 ⟨gb, cb, lb⟩
  exact ⟨a1, b1, a2, b2, ga, gb⟩

/-- Non-vacuity: for every system there are executions that have stopped. -/
theorem stops (f : Bool) (cap : ℕ) : ∀ n (s : XSys), s.work ≤ n → ∃ t, XSteps f cap s t ∧ XStuck f cap t := by
  intro n
  induction n with
  | zero => intro s hs; exact ⟨s, .refl s, fun t ht => by have := xStep_work ht; omega⟩
  | succ n ih =>
    intro s hs
    by_cases h : ∃ t, XStep f cap s t
    · obtain ⟨t, ht⟩ := h
      obtain ⟨u, hu, hst⟩ := ih t (by have := xStep_work ht; omega)
      refine ⟨u, ?_, hst⟩
      clear hst
      induction hu with
      | refl => exact .tail (.refl s) ht
      | tail _ h ih => exact .tail ih h
    · exact ⟨s, .refl s, fun t ht => h ⟨t, ht⟩⟩

/-- C51: with fork the final state is reached. -/
theorem C51_fork_completes {cap : ℕ} (hc : 0 < cap) (rounds : List (Bytes × Bytes)) : XSteps true cap (xStart rounds) (xDone rounds) := by
  obtain ⟨s, h, hst⟩ := stops true cap _ (xStart rounds) (le_refl _)
  rwa [C51_fork_no_deadlock hc rounds h hst] at h

/-- Two exchanges through one-byte buffers: with fork they complete, without fork they do not. -/
example : XSteps true 1 (xStart [([1#8, 2#8], [3#8, 4#8]), ([5#8], [])]) (xDone [([1#8, 2#8], [3#8, 4#8]), ([5#8], [])]) :=
  C51_fork_completes (by decide) _

example : ∃ s, XSteps false 1 (xStart [([1#8, 2#8], [3#8, 4#8]), ([5#8], [])]) s ∧ XStuck false 1 s ∧ s.a.out ≠ [] ∧ s.b.out ≠ [] := by
  obtain ⟨s, h, hst⟩ := stops false 1 _ (xStart [([1#8, 2#8], [3#8, 4#8]), ([5#8], [])]) (le_refl _)
  have := C51_no_fork_deadlock [1#8, 2#8] [3#8, 4#8] [([5#8], [])] (by decide) (by decide) h hst
  exact ⟨s, h, hst, this.1, this.2.1⟩

example : XSteps false 1 (xStart [([1#8, 2#8], [3#8]), ([5#8], [])]) (xDone [([1#8, 2#8], [3#8]), ([5#8], [])]) := by
  obtain ⟨s, h, hst⟩ := stops false 1 _ (xStart [([1#8, 2#8], [3#8]), ([5#8], [])]) (le_refl _)
  rwa [C51_no_fork_small (by decide) _ (by decide) h hst] at h

end Verif

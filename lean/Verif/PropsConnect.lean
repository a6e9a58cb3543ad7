import Mathlib.Data.List.Nodup
import Verif.ModelConnect
import Verif.PropsStray

/-!
# C83: a query reaches both servers, and both at the same place
-/

namespace Verif

open Relation

/-! ## Specification -/

/-- The ports fit together: the other side of each connection names the same 16-bit port, and the three ports in use are different and not 0. -/
structure PortsOk (c : ConnCfg) : Prop where
  link : htons c.server1 = htons c.server0
  to0 : ∀ i, htons (c.port0 i) = htons c.client0
  to1 : ∀ i, htons (c.port1 i) = htons c.client1
  server0 : htons c.server0 ≠ 0
  client0 : htons c.client0 ≠ 0
  client1 : htons c.client1 ≠ 0
  apart0 : htons c.server0 ≠ htons c.client0
  apart1 : htons c.server0 ≠ htons c.client1
  apart : htons c.client0 ≠ htons c.client1

/-- The connections waiting on a socket. -/
def Net.queue (s : Net) (l : Lid) : List Conn := ((s.sock l).map (·.2)).getD []

/-- The queries that have reached server 0, in the order in which it handles them: those accepted and those waiting. -/
def Net.all0 (s : Net) : List Conn := s.took0 ++ s.queue .cl0

/-- The queries that have reached server 1. -/
def Net.all1 (s : Net) : List Conn := s.took1 ++ s.queue .cl1

/-- The run has made its first connection. -/
def CliAt.past : CliAt → Prop
  | .half | .both | .halfRefused => True
  | .start | .refused => False

/-- A step in which a run of the client starts only when both servers are ready and no other run is between its two connections. -/
def OrderlyStep (c : ConnCfg) (s t : Net) : Prop :=
  NetStep c s t ∧ ∀ i, s.cl i = .start → t.cl i ≠ .start → s.at0 = .serving ∧ s.at1 = .serving ∧ ∀ j, s.cl j ≠ .half

/-- `s` occurs in an execution in which the runs of the client do not overlap while they connect. -/
def Orderly (c : ConnCfg) (s : Net) : Prop := ReflTransGen (OrderlyStep c) netStart s

/-! ## Lemmas -/

@[simp] theorem queue_put_same (s : Net) (l : Lid) (p : BitVec 16) (q : List Conn) : (s.put l p q).queue l = q := by simp [Net.queue, Net.put]

theorem queue_put_ne (s : Net) {l l' : Lid} (h : l' ≠ l) (p : BitVec 16) (q : List Conn) : (s.put l p q).queue l' = s.queue l' := by
  simp [Net.queue, Net.put, Function.update_of_ne h]

theorem queue_of {s : Net} {l : Lid} {p : BitVec 16} {q : List Conn} (h : s.sock l = some (p, q)) : s.queue l = q := by simp [Net.queue, h]

/-- What holds in every state that is reached if the ports fit together. -/
structure Placed (c : ConnCfg) (s : Net) : Prop where
  pp : ∀ p q, s.sock .peer0 = some (p, q) → p = htons c.server0
  p0 : ∀ p q, s.sock .cl0 = some (p, q) → p = htons c.client0
  p1 : ∀ p q, s.sock .cl1 = some (p, q) → p = htons c.client1
  up : (s.sock .peer0).isSome ↔ s.at0 ≠ .start
  up0 : (s.sock .cl0).isSome ↔ s.at0 = .serving
  up1 : (s.sock .cl1).isSome ↔ s.at1 = .serving
  qp : ∀ x ∈ s.queue .peer0, x = .peer
  peer : ∀ x, s.peer = some x → x = .peer
  e0 : ∃ ids : List ℕ, s.all0 = ids.map .first ∧ ids.Nodup ∧ ∀ i, i ∈ ids ↔ (s.cl i).past
  e1 : ∃ ids : List ℕ, s.all1 = ids.map .second ∧ ids.Nodup ∧ ∀ i, i ∈ ids ↔ s.cl i = .both

theorem placed_start (c : ConnCfg) : Placed c netStart := by
  refine ⟨by simp [netStart], by simp [netStart], by simp [netStart], by simp [netStart], by simp [netStart], by simp [netStart],
    by simp [netStart, Net.queue], by simp [netStart], ⟨[], ?_⟩, ⟨[], ?_⟩⟩
  · simp [netStart, Net.all0, Net.queue, CliAt.past]
  · simp [netStart, Net.all1, Net.queue]

theorem binds_of {s : Net} {port : BitVec 32} {p : BitVec 16} (h : Binds s port p) (h0 : htons port ≠ 0) : p = htons port := by
  rwa [Binds, if_neg h0] at h

/-- A connection to the port of server 0 for server 1 arrives there. -/
theorem Placed.at_peer {c : ConnCfg} (hc : PortsOk c) {s : Net} (h : Placed c s) {l : Lid} {q : List Conn}
    (hl : s.sock l = some (htons c.server0, q)) : l = .peer0 := by
  cases l
  · rfl
  · exact absurd (h.p0 _ _ hl) hc.apart0
  · exact absurd (h.p1 _ _ hl) hc.apart1

theorem Placed.at_cl0 {c : ConnCfg} (hc : PortsOk c) {s : Net} (h : Placed c s) {l : Lid} {q : List Conn}
    (hl : s.sock l = some (htons c.client0, q)) : l = .cl0 := by
  cases l
  · exact absurd (h.pp _ _ hl).symm hc.apart0
  · rfl
  · exact absurd (h.p1 _ _ hl) hc.apart

theorem Placed.at_cl1 {c : ConnCfg} (hc : PortsOk c) {s : Net} (h : Placed c s) {l : Lid} {q : List Conn}
    (hl : s.sock l = some (htons c.client1, q)) : l = .cl1 := by
  cases l
  · exact absurd (h.pp _ _ hl).symm hc.apart1
  · exact absurd (h.p0 _ _ hl).symm hc.apart
  · rfl

theorem Placed.step {c : ConnCfg} (hc : PortsOk c) {s t : Net} (h : Placed c s) (hst : NetStep c s t) : Placed c t := by
  cases hst with
  | listen0 ha hb =>
    have hp := binds_of hb hc.server0
    exact ⟨by simp [Net.put, hp], by simpa [Net.put] using h.p0, by simpa [Net.put] using h.p1, by simp [Net.put],
      by have := h.up0; simp_all [Net.put], by simpa [Net.put] using h.up1, by simp [Net.queue, Net.put], by simpa [Net.put] using h.peer,
      by simpa [Net.all0, Net.queue, Net.put] using h.e0, by simpa [Net.all1, Net.queue, Net.put] using h.e1⟩
  | accept0 ha hs =>
    have hq := h.qp; rw [queue_of hs] at hq
    have hp := h.pp _ _ hs
    exact ⟨by simp [Net.put, hp], by simpa [Net.put] using h.p0, by simpa [Net.put] using h.p1, by simp [Net.put],
      by have := h.up0; simp_all [Net.put], by simpa [Net.put] using h.up1,
      by simpa [Net.queue, Net.put] using fun x hx => hq x (List.mem_cons_of_mem _ hx), by simpa [Net.put] using hq _ List.mem_cons_self,
      by simpa [Net.all0, Net.queue, Net.put] using h.e0, by simpa [Net.all1, Net.queue, Net.put] using h.e1⟩
  | serve0 ha hb =>
    have hp := binds_of hb hc.client0
    have hn : s.sock .cl0 = none := by have := h.up0; rw [ha] at this; simpa using this
    exact ⟨by simpa [Net.put] using h.pp, by simp [Net.put, hp], by simpa [Net.put] using h.p1, by have := h.up; simp_all [Net.put],
      by simp [Net.put], by simpa [Net.put] using h.up1, by simpa [Net.queue, Net.put] using h.qp, by simpa [Net.put] using h.peer,
      by simpa [Net.all0, Net.queue, Net.put, hn] using h.e0, by simpa [Net.all1, Net.queue, Net.put] using h.e1⟩
  | take0 ha hs =>
    have hp := h.p0 _ _ hs
    exact ⟨by simpa [Net.put] using h.pp, by simp [Net.put, hp], by simpa [Net.put] using h.p1, by have := h.up; simp_all [Net.put],
      by simp [Net.put, ha], by simpa [Net.put] using h.up1, by simpa [Net.queue, Net.put] using h.qp, by simpa [Net.put] using h.peer,
      by simpa [Net.all0, Net.queue, Net.put, hs] using h.e0, by simpa [Net.all1, Net.queue, Net.put] using h.e1⟩
  | connect1 ha hs =>
    rw [hc.link] at hs ⊢
    obtain rfl := h.at_peer hc hs
    have hq := h.qp; rw [queue_of hs] at hq
    exact ⟨by simp [Net.put], by simpa [Net.put] using h.p0, by simpa [Net.put] using h.p1, by have := h.up; simp_all [Net.put],
      by simpa [Net.put] using h.up0, by have := h.up1; simp_all [Net.put],
      by simp only [Net.queue, Net.put, Function.update_self, Option.map_some, Option.getD_some, List.mem_append, List.mem_singleton]
         rintro x (hx | hx)
         · exact hq x hx
         · exact hx,
      by simpa [Net.put] using h.peer,
      by simpa [Net.all0, Net.queue, Net.put] using h.e0, by simpa [Net.all1, Net.queue, Net.put] using h.e1⟩
  | refused1 ha hs =>
    exact ⟨h.pp, h.p0, h.p1, h.up, h.up0, by have := h.up1; simp_all, h.qp, h.peer, h.e0, h.e1⟩
  | serve1 ha hb =>
    have hp := binds_of hb hc.client1
    have hn : s.sock .cl1 = none := by have := h.up1; rw [ha] at this; simpa using this
    exact ⟨by simpa [Net.put] using h.pp, by simpa [Net.put] using h.p0, by simp [Net.put, hp], by simpa [Net.put] using h.up,
      by simpa [Net.put] using h.up0, by simp [Net.put], by simpa [Net.queue, Net.put] using h.qp, by simpa [Net.put] using h.peer,
      by simpa [Net.all0, Net.queue, Net.put] using h.e0, by simpa [Net.all1, Net.queue, Net.put, hn] using h.e1⟩
  | take1 ha hs =>
    have hp := h.p1 _ _ hs
    exact ⟨by simpa [Net.put] using h.pp, by simpa [Net.put] using h.p0, by simp [Net.put, hp], by simpa [Net.put] using h.up,
      by simpa [Net.put] using h.up0, by simp [Net.put, ha], by simpa [Net.queue, Net.put] using h.qp, by simpa [Net.put] using h.peer,
      by simpa [Net.all0, Net.queue, Net.put] using h.e0, by simpa [Net.all1, Net.queue, Net.put, hs] using h.e1⟩
  | @first i l q ha hs =>
    rw [hc.to0] at hs ⊢
    obtain rfl := h.at_cl0 hc hs
    obtain ⟨ids, hi, hnd, hm⟩ := h.e0
    obtain ⟨ids1, hi1, hnd1, hm1⟩ := h.e1
    have hni : i ∉ ids := by rw [hm, ha]; simp [CliAt.past]
    refine ⟨by simpa [Net.put, Net.client] using h.pp, by simp [Net.put, Net.client], by simpa [Net.put, Net.client] using h.p1,
      by simpa [Net.put, Net.client] using h.up, by have := h.up0; simp_all [Net.put, Net.client], by simpa [Net.put, Net.client] using h.up1,
      by simpa [Net.queue, Net.put, Net.client] using h.qp, by simpa [Net.put, Net.client] using h.peer, ⟨ids ++ [i], ?_, ?_, ?_⟩, ⟨ids1, ?_, hnd1, ?_⟩⟩
    · rw [List.map_append, ← hi]; simp [Net.all0, Net.queue, Net.put, Net.client, hs]
    · simpa [List.nodup_append] using ⟨hnd, fun a ha' e => hni (e ▸ ha')⟩
    · intro j
      by_cases hj : j = i
      · subst hj; simp [Net.client, CliAt.past]
      · simp [Net.client, Net.put, hj, hm]
    · rw [← hi1]; simp [Net.all1, Net.queue, Net.put, Net.client]
    · intro j
      by_cases hj : j = i
      · subst hj; simp [Net.client, hm1, ha]
      · simp [Net.client, Net.put, hj, hm1]
  | @firstRefused i ha hs =>
    obtain ⟨ids, hi, hnd, hm⟩ := h.e0
    obtain ⟨ids1, hi1, hnd1, hm1⟩ := h.e1
    refine ⟨h.pp, h.p0, h.p1, h.up, h.up0, h.up1, h.qp, h.peer, ⟨ids, hi, hnd, ?_⟩, ⟨ids1, hi1, hnd1, ?_⟩⟩
    · intro j
      by_cases hj : j = i
      · subst hj; simp [Net.client, hm, ha, CliAt.past]
      · simp [Net.client, hj, hm]
    · intro j
      by_cases hj : j = i
      · subst hj; simp [Net.client, hm1, ha]
      · simp [Net.client, hj, hm1]
  | @second i l q ha hs =>
    rw [hc.to1] at hs ⊢
    obtain rfl := h.at_cl1 hc hs
    obtain ⟨ids, hi, hnd, hm⟩ := h.e0
    obtain ⟨ids1, hi1, hnd1, hm1⟩ := h.e1
    have hni : i ∉ ids1 := by rw [hm1, ha]; simp
    refine ⟨by simpa [Net.put, Net.client] using h.pp, by simpa [Net.put, Net.client] using h.p0, by simp [Net.put, Net.client],
      by simpa [Net.put, Net.client] using h.up, by simpa [Net.put, Net.client] using h.up0, by have := h.up1; simp_all [Net.put, Net.client],
      by simpa [Net.queue, Net.put, Net.client] using h.qp, by simpa [Net.put, Net.client] using h.peer, ⟨ids, ?_, hnd, ?_⟩, ⟨ids1 ++ [i], ?_, ?_, ?_⟩⟩
    · rw [← hi]; simp [Net.all0, Net.queue, Net.put, Net.client]
    · intro j
      by_cases hj : j = i
      · subst hj; simp [Net.client, hm, ha, CliAt.past]
      · simp [Net.client, Net.put, hj, hm]
    · rw [List.map_append, ← hi1]; simp [Net.all1, Net.queue, Net.put, Net.client, hs]
    · simpa [List.nodup_append] using ⟨hnd1, fun a ha' e => hni (e ▸ ha')⟩
    · intro j
      by_cases hj : j = i
      · subst hj; simp [Net.client]
      · simp [Net.client, Net.put, hj, hm1]
  | @secondRefused i ha hs =>
    obtain ⟨ids, hi, hnd, hm⟩ := h.e0
    obtain ⟨ids1, hi1, hnd1, hm1⟩ := h.e1
    refine ⟨h.pp, h.p0, h.p1, h.up, h.up0, h.up1, h.qp, h.peer, ⟨ids, hi, hnd, ?_⟩, ⟨ids1, hi1, hnd1, ?_⟩⟩
    · intro j
      by_cases hj : j = i
      · subst hj; simp [Net.client, hm, ha, CliAt.past]
      · simp [Net.client, hj, hm]
    · intro j
      by_cases hj : j = i
      · subst hj; simp [Net.client, hm1, ha]
      · simp [Net.client, hj, hm1]

theorem Reached.placed {c : ConnCfg} (hc : PortsOk c) {s : Net} (h : Reached c s) : Placed c s := by
  induction h with
  | refl => exact placed_start c
  | tail _ hst ih => exact ih.step hc hst

/-- What holds in addition if the runs of the client do not overlap while they connect. -/
structure InOrder (s : Net) : Prop where
  ready : (∃ i, s.cl i ≠ .start) → s.at0 = .serving ∧ s.at1 = .serving
  fine : ∀ i, s.cl i ≠ .refused ∧ s.cl i ≠ .halfRefused
  same : ∃ ids : List ℕ, s.all1 = ids.map .second ∧
    ((s.all0 = ids.map .first ∧ ∀ i, s.cl i ≠ .half) ∨
      ∃ i, s.all0 = (ids ++ [i]).map .first ∧ s.cl i = .half ∧ ∀ j, s.cl j = .half → j = i)

theorem InOrder.step {c : ConnCfg} (hc : PortsOk c) {s t : Net} (hp : Placed c s) (h : InOrder s) (hst : OrderlyStep c s t) : InOrder t := by
  obtain ⟨hst, ho⟩ := hst
  have up0 := hp.up0
  have up1 := hp.up1
  cases hst with
  | listen0 ha hb =>
    refine ⟨fun hx => ?_, h.fine, by simpa [Net.all0, Net.all1, Net.queue, Net.put] using h.same⟩
    have := h.ready hx; simp_all
  | accept0 ha hs =>
    refine ⟨fun hx => ?_, h.fine, by simpa [Net.all0, Net.all1, Net.queue, Net.put] using h.same⟩
    have := h.ready hx; simp_all
  | serve0 ha hb =>
    have hn : s.sock .cl0 = none := by rw [ha] at up0; simpa using up0
    refine ⟨fun hx => ?_, h.fine, by simpa [Net.all0, Net.all1, Net.queue, Net.put, hn] using h.same⟩
    have := h.ready hx; simp_all
  | take0 ha hs => exact ⟨h.ready, h.fine, by simpa [Net.all0, Net.all1, Net.queue, Net.put, hs] using h.same⟩
  | connect1 ha hs =>
    rw [hc.link] at hs ⊢
    obtain rfl := hp.at_peer hc hs
    refine ⟨fun hx => ?_, h.fine, by simpa [Net.all0, Net.all1, Net.queue, Net.put] using h.same⟩
    have := h.ready hx; simp_all
  | refused1 ha hs =>
    refine ⟨fun hx => ?_, h.fine, h.same⟩
    have := h.ready hx; simp_all
  | serve1 ha hb =>
    have hn : s.sock .cl1 = none := by rw [ha] at up1; simpa using up1
    refine ⟨fun hx => ?_, h.fine, by simpa [Net.all0, Net.all1, Net.queue, Net.put, hn] using h.same⟩
    have := h.ready hx; simp_all
  | take1 ha hs => exact ⟨h.ready, h.fine, by simpa [Net.all0, Net.all1, Net.queue, Net.put, hs] using h.same⟩
  | @first i l q ha hs =>
    rw [hc.to0] at hs ho ⊢
    obtain rfl := hp.at_cl0 hc hs
    obtain ⟨r0, r1, hnh⟩ := ho i ha (by simp [Net.client])
    obtain ⟨ids, h1, h0 | ⟨j, -, hj, -⟩⟩ := h.same
    · refine ⟨fun _ => ⟨r0, r1⟩, fun j => ?_, ids, ?_, .inr ⟨i, ?_, ?_, fun j hj => ?_⟩⟩
      · by_cases hj : j = i
        · subst hj; simp [Net.client]
        · simpa [Net.client, Net.put, hj] using h.fine j
      · rw [← h1]; simp [Net.all1, Net.queue, Net.put, Net.client]
      · rw [List.map_append, ← h0.1]; simp [Net.all0, Net.queue, Net.put, Net.client, hs]
      · simp [Net.client]
      · by_contra hji
        simp only [Net.client, Net.put, Function.update_of_ne hji] at hj
        exact hnh j hj
    · exact absurd hj (hnh j)
  | @firstRefused i ha hs =>
    obtain ⟨r0, r1, -⟩ := ho i ha (by simp [Net.client])
    obtain ⟨⟨p, q⟩, hk⟩ := Option.isSome_iff_exists.1 (up0.2 r0)
    refine absurd ?_ (hs _ _ _ hk)
    rw [hc.to0]; exact hp.p0 _ _ hk
  | @second i l q ha hs =>
    rw [hc.to1] at hs ho ⊢
    obtain rfl := hp.at_cl1 hc hs
    obtain ⟨ids, h1, h0 | ⟨j, h0, hj, hu⟩⟩ := h.same
    · exact absurd ha (h0.2 i)
    · obtain rfl := hu i ha
      refine ⟨fun _ => h.ready ⟨i, by simp [ha]⟩, fun j => ?_, ids ++ [i], ?_, .inl ⟨?_, fun j hj => ?_⟩⟩
      · by_cases hj : j = i
        · subst hj; simp [Net.client]
        · simpa [Net.client, Net.put, hj] using h.fine j
      · rw [List.map_append, ← h1]; simp [Net.all1, Net.queue, Net.put, Net.client, hs]
      · rw [← h0]; simp [Net.all0, Net.queue, Net.put, Net.client]
      · by_cases hji : j = i
        · subst hji; simp [Net.client] at hj
        · simp only [Net.client, Net.put, Function.update_of_ne hji] at hj
          exact hji (hu j hj)
  | @secondRefused i ha hs =>
    obtain ⟨r0, r1⟩ := h.ready ⟨i, by simp [ha]⟩
    obtain ⟨⟨p, q⟩, hk⟩ := Option.isSome_iff_exists.1 (up1.2 r1)
    refine absurd ?_ (hs _ _ _ hk)
    rw [hc.to1]; exact hp.p1 _ _ hk

theorem Orderly.reached {c : ConnCfg} {s : Net} (h : Orderly c s) : Reached c s := by
  induction h with
  | refl => exact .refl
  | tail _ hst ih => exact ReflTransGen.tail ih hst.1

theorem Orderly.inOrder {c : ConnCfg} (hc : PortsOk c) {s : Net} (h : Orderly c s) : InOrder s := by
  induction h with
  | refl =>
    exact ⟨by simp [netStart], by simp [netStart], [], by simp [netStart, Net.all1, Net.queue], .inl (by simp [netStart, Net.all0, Net.queue])⟩
  | tail h' hst ih => exact ih.step hc (Reached.placed hc (Orderly.reached h')) hst

/-! ## C83 -/

/-- If the ports fit together, then in every execution, with any number of runs of the client in any interleaving: server 0 takes nobody but
server 1 for server 1; each server is reached by the connections meant for it only, and by each of them once; a run that has passed both calls
of `connect` has reached both. -/
theorem C83_place_partial {c : ConnCfg} (hc : PortsOk c) {s : Net} (h : Reached c s) :
    (∀ x, s.peer = some x → x = .peer) ∧
    (∀ x ∈ s.all0, ∃ i, x = .first i) ∧ (∀ x ∈ s.all1, ∃ i, x = .second i) ∧ s.all0.Nodup ∧ s.all1.Nodup ∧
    ∀ i, s.cl i = .both → .first i ∈ s.all0 ∧ .second i ∈ s.all1 := by
  have hp := h.placed hc
  obtain ⟨ids, h0, n0, m0⟩ := hp.e0
  obtain ⟨ids1, h1, n1, m1⟩ := hp.e1
  refine ⟨hp.peer, ?_, ?_, ?_, ?_, fun i hi => ⟨?_, ?_⟩⟩
  · rw [h0]; simp only [List.mem_map]; rintro x ⟨i, -, rfl⟩; exact ⟨i, rfl⟩
  · rw [h1]; simp only [List.mem_map]; rintro x ⟨i, -, rfl⟩; exact ⟨i, rfl⟩
  · rw [h0]; exact n0.map fun a b e => by simpa using e
  · rw [h1]; exact n1.map fun a b e => by simpa using e
  · rw [h0]; exact List.mem_map_of_mem ((m0 i).2 (by rw [hi]; trivial))
  · rw [h1]; exact List.mem_map_of_mem ((m1 i).2 hi)

/-- C83, the part that holds: if in addition the runs of the client do not overlap while they connect and start when both servers are ready, then
the `k`-th query of server 0 and the `k`-th query of server 1 come from the same run, and no run is turned away. -/
theorem C83_order_partial {c : ConnCfg} (hc : PortsOk c) {s : Net} (h : Orderly c s) :
    (∀ (k : ℕ) (x y : Conn), s.took0[k]? = some x → s.took1[k]? = some y → ∃ i, x = Conn.first i ∧ y = Conn.second i) ∧
    ∀ i, s.cl i ≠ .refused ∧ s.cl i ≠ .halfRefused := by
  have hi := h.inOrder hc
  refine ⟨fun k x y hx hy => ?_, hi.fine⟩
  have hx' : s.all0[k]? = some x := by
    rw [Net.all0, List.getElem?_append_left (List.getElem?_eq_some_iff.1 hx).1, hx]
  have hy' : s.all1[k]? = some y := by
    rw [Net.all1, List.getElem?_append_left (List.getElem?_eq_some_iff.1 hy).1, hy]
  obtain ⟨ids, h1, h0⟩ := hi.same
  rw [h1, List.getElem?_map, Option.map_eq_some_iff] at hy'
  obtain ⟨i, hk, rfl⟩ := hy'
  refine ⟨i, ?_, rfl⟩
  have hlt := (List.getElem?_eq_some_iff.1 hk).1
  rcases h0 with ⟨h0, -⟩ | ⟨j, h0, -⟩
  · rw [h0, List.getElem?_map, hk] at hx'; simpa using hx'.symm
  · rw [h0, List.getElem?_map, List.getElem?_append_left hlt, hk] at hx'; simpa using hx'.symm

theorem drain0 (c : ConnCfg) {s : Net} (ha : s.at0 = .serving) : ∃ t, ReflTransGen (OrderlyStep c) s t ∧ t.took0 = s.all0 ∧ t.took1 = s.took1 ∧
    t.queue .cl1 = s.queue .cl1 ∧ t.sock .cl1 = s.sock .cl1 ∧ t.at1 = s.at1 ∧ t.cl = s.cl := by
  generalize hq : s.queue .cl0 = q
  induction q generalizing s with
  | nil => exact ⟨s, .refl, by simp [Net.all0, hq], rfl, rfl, rfl, rfl, rfl⟩
  | cons x q ih =>
    obtain ⟨p, hs⟩ : ∃ p, s.sock .cl0 = some (p, x :: q) := by
      cases hk : s.sock .cl0 with
      | none => simp [Net.queue, hk] at hq
      | some pq => obtain ⟨p, q'⟩ := pq; rw [queue_of hk] at hq; exact ⟨p, by rw [hq]⟩
    obtain ⟨t, h1, h2, h3, h4, h5, h6, h7⟩ := ih (s := { s.put .cl0 p q with took0 := s.took0 ++ [x] }) ha (by simp [Net.queue, Net.put])
    refine ⟨t, .head ⟨.take0 ha hs, fun i h h' => absurd h h'⟩ h1, ?_, h3, ?_, ?_, h6, h7⟩
    · rw [h2]; simp [Net.all0, Net.queue, Net.put, hs]
    · rw [h4]; simp [Net.queue, Net.put]
    · rw [h5]; simp [Net.put]

theorem drain1 (c : ConnCfg) {s : Net} (ha : s.at1 = .serving) : ∃ t, ReflTransGen (OrderlyStep c) s t ∧ t.took1 = s.all1 ∧ t.took0 = s.took0 ∧ t.cl = s.cl := by
  generalize hq : s.queue .cl1 = q
  induction q generalizing s with
  | nil => exact ⟨s, .refl, by simp [Net.all1, hq], rfl, rfl⟩
  | cons x q ih =>
    obtain ⟨p, hs⟩ : ∃ p, s.sock .cl1 = some (p, x :: q) := by
      cases hk : s.sock .cl1 with
      | none => simp [Net.queue, hk] at hq
      | some pq => obtain ⟨p, q'⟩ := pq; rw [queue_of hk] at hq; exact ⟨p, by rw [hq]⟩
    obtain ⟨t, h1, h2, h3, h4⟩ := ih (s := { s.put .cl1 p q with took1 := s.took1 ++ [x] }) ha (by simp [Net.queue, Net.put])
    exact ⟨t, .head ⟨.take1 ha hs, fun i h h' => absurd h h'⟩ h1, by rw [h2]; simp [Net.all1, Net.queue, Net.put, hs], h3, h4⟩

/-- Nothing gets stuck: once the servers are ready, a run that has not started can connect to both servers (unless another run is connecting), and
all queries that have reached the servers can be accepted by both, in the same order. -/
theorem C83_progress {c : ConnCfg} (hc : PortsOk c) {s : Net} (h : Orderly c s) (h0 : s.at0 = .serving) (h1 : s.at1 = .serving) :
    (∀ i, s.cl i = .start → (∀ j, s.cl j ≠ .half) → ∃ t, ReflTransGen (OrderlyStep c) s t ∧ t.cl i = .both) ∧
    (∀ i, s.cl i = .half → ∃ t, ReflTransGen (OrderlyStep c) s t ∧ t.cl i = .both) ∧
    ∃ t, ReflTransGen (OrderlyStep c) s t ∧ t.took0 = s.all0 ∧ t.took1 = s.all1 := by
  have hp := Reached.placed hc h.reached
  have second : ∀ {u : Net}, Placed c u → u.at1 = .serving → ∀ i, u.cl i = .half → ∃ t, OrderlyStep c u t ∧ t.cl i = .both := by
    intro u hu ha i hi
    obtain ⟨⟨p, q⟩, hk⟩ := Option.isSome_iff_exists.1 (hu.up1.2 ha)
    obtain rfl := hu.p1 _ _ hk
    rw [← hc.to1 i] at hk
    refine ⟨_, ⟨.second hi hk, fun j hj hj' => ?_⟩, by simp [Net.client]⟩
    by_cases hji : j = i
    · subst hji; rw [hi] at hj; cases hj
    · simp [Net.client, Net.put, hji, hj] at hj'
  refine ⟨fun i hi hn => ?_, fun i hi => ?_, ?_⟩
  · obtain ⟨⟨p, q⟩, hk⟩ := Option.isSome_iff_exists.1 (hp.up0.2 h0)
    obtain rfl := hp.p0 _ _ hk
    rw [← hc.to0 i] at hk
    have hst : NetStep c s _ := .first hi hk
    obtain ⟨t, ht, hb⟩ := second (hp.step hc hst) h1 i (by simp [Net.client])
    exact ⟨t, .head ⟨hst, fun _ _ _ => ⟨h0, h1, hn⟩⟩ (.single ht), hb⟩
  · obtain ⟨t, ht, hb⟩ := second hp h1 i hi
    exact ⟨t, .single ht, hb⟩
  · obtain ⟨t, a1, a2, a3, a4, a5, a6, -⟩ := drain0 c h0
    obtain ⟨u, b1, b2, b3, -⟩ := drain1 c (s := t) (by rw [a6, h1])
    exact ⟨u, a1.trans b1, by rw [b3, a2], by rw [b2, Net.all1, a3, a4]; rfl⟩

/-- Started in this order, the servers get connected and ready: server 0 listens, server 1 connects, server 0 accepts. -/
theorem C83_start {c : ConnCfg} (hc : PortsOk c) : ∃ s, Orderly c s ∧ s.at0 = .serving ∧ s.at1 = .serving ∧ s.peer = some .peer ∧ s.cl = netStart.cl ∧
    s.sock = (fun | .peer0 => some (htons c.server0, []) | .cl0 => some (htons c.client0, []) | .cl1 => some (htons c.client1, [])) ∧
    s.took0 = [] ∧ s.took1 = [] := by
  have b : ∀ (s : Net) (port : BitVec 32), htons port ≠ 0 → Binds s port (htons port) := fun s port h => by rw [Binds, if_neg h]
  have e1 : NetStep c netStart _ := .listen0 rfl (b _ _ hc.server0)
  have e2 := NetStep.connect1 (c := c) (s := { netStart.put .peer0 (htons c.server0) [] with at0 := .listening }) (l := .peer0) (q := []) rfl
    (by simp [Net.put, hc.link])
  have e3 := NetStep.accept0 (c := c) (s := { ({ netStart.put .peer0 (htons c.server0) [] with at0 := .listening } : Net).put .peer0 (htons c.server1) ([] ++ [.peer]) with at1 := .linked })
    (p := htons c.server1) (x := .peer) (q := []) rfl (by simp [Net.put])
  have e4 := NetStep.serve0 (c := c) (s := { ({ ({ netStart.put .peer0 (htons c.server0) [] with at0 := .listening } : Net).put .peer0 (htons c.server1) ([] ++ [.peer]) with at1 := .linked } : Net).put .peer0 (htons c.server1) [] with at0 := .linked, peer := some .peer })
    rfl (b _ _ hc.client0)
  have e5 := NetStep.serve1 (c := c) (s := { ({ ({ ({ netStart.put .peer0 (htons c.server0) [] with at0 := .listening } : Net).put .peer0 (htons c.server1) ([] ++ [.peer]) with at1 := .linked } : Net).put .peer0 (htons c.server1) [] with at0 := .linked, peer := some .peer } : Net).put .cl0 (htons c.client0) [] with at0 := .serving })
    rfl (b _ _ hc.client1)
  have o : ∀ {s t : Net}, NetStep c s t → t.cl = s.cl → OrderlyStep c s t := fun h e => ⟨h, fun i hi hi' => absurd (e ▸ hi) hi'⟩
  refine ⟨_, ((((ReflTransGen.single (o e1 rfl)).tail (o e2 rfl)).tail (o e3 rfl)).tail (o e4 rfl)).tail (o e5 rfl), rfl, rfl, rfl, rfl, ?_, rfl, rfl⟩
  funext l
  cases l <;> simp [Net.put, hc.link]

/-! ## What goes wrong otherwise -/

/-- Both servers are in their main loops, with these queues, accepted connections and runs of the client. -/
structure Is (c : ConnCfg) (s : Net) (q0 q1 a b : List Conn) (f : ℕ → CliAt) : Prop where
  at0 : s.at0 = .serving
  at1 : s.at1 = .serving
  sock0 : s.sock .cl0 = some (htons c.client0, q0)
  sock1 : s.sock .cl1 = some (htons c.client1, q1)
  took0 : s.took0 = a
  took1 : s.took1 = b
  cl : s.cl = f

theorem Is.take0 {c : ConnCfg} {s : Net} {q0 q1 a b : List Conn} {f : ℕ → CliAt} {x : Conn} (h : Is c s (x :: q0) q1 a b f) :
    ∃ t, NetStep c s t ∧ Is c t q0 q1 (a ++ [x]) b f :=
  ⟨_, .take0 h.at0 h.sock0, h.at0, h.at1, by simp [Net.put], by simpa [Net.put] using h.sock1, by simp [h.took0], h.took1, h.cl⟩

theorem Is.take1 {c : ConnCfg} {s : Net} {q0 q1 a b : List Conn} {f : ℕ → CliAt} {x : Conn} (h : Is c s q0 (x :: q1) a b f) :
    ∃ t, NetStep c s t ∧ Is c t q0 q1 a (b ++ [x]) f :=
  ⟨_, .take1 h.at1 h.sock1, h.at0, h.at1, by simpa [Net.put] using h.sock0, by simp [Net.put], h.took0, by simp [h.took1], h.cl⟩

theorem Is.first0 {c : ConnCfg} {s : Net} {q0 q1 a b : List Conn} {f : ℕ → CliAt} {i : ℕ} (h : Is c s q0 q1 a b f) (hi : f i = .start)
    (hp : htons (c.port0 i) = htons c.client0) : ∃ t, NetStep c s t ∧ Is c t (q0 ++ [.first i]) q1 a b (Function.update f i .half) :=
  ⟨_, .first (by rw [h.cl, hi]) (by rw [hp]; exact h.sock0), h.at0, h.at1, by simp [Net.put, Net.client, hp],
    by simpa [Net.put, Net.client] using h.sock1, h.took0, h.took1, by simp [Net.client, Net.put, h.cl]⟩

theorem Is.first1 {c : ConnCfg} {s : Net} {q0 q1 a b : List Conn} {f : ℕ → CliAt} {i : ℕ} (h : Is c s q0 q1 a b f) (hi : f i = .start)
    (hp : htons (c.port0 i) = htons c.client1) : ∃ t, NetStep c s t ∧ Is c t q0 (q1 ++ [.first i]) a b (Function.update f i .half) :=
  ⟨_, .first (by rw [h.cl, hi]) (by rw [hp]; exact h.sock1), h.at0, h.at1, by simpa [Net.put, Net.client] using h.sock0,
    by simp [Net.put, Net.client, hp], h.took0, h.took1, by simp [Net.client, Net.put, h.cl]⟩

theorem Is.second0 {c : ConnCfg} {s : Net} {q0 q1 a b : List Conn} {f : ℕ → CliAt} {i : ℕ} (h : Is c s q0 q1 a b f) (hi : f i = .half)
    (hp : htons (c.port1 i) = htons c.client0) : ∃ t, NetStep c s t ∧ Is c t (q0 ++ [.second i]) q1 a b (Function.update f i .both) :=
  ⟨_, .second (by rw [h.cl, hi]) (by rw [hp]; exact h.sock0), h.at0, h.at1, by simp [Net.put, Net.client, hp],
    by simpa [Net.put, Net.client] using h.sock1, h.took0, h.took1, by simp [Net.client, Net.put, h.cl]⟩

theorem Is.second1 {c : ConnCfg} {s : Net} {q0 q1 a b : List Conn} {f : ℕ → CliAt} {i : ℕ} (h : Is c s q0 q1 a b f) (hi : f i = .half)
    (hp : htons (c.port1 i) = htons c.client1) : ∃ t, NetStep c s t ∧ Is c t q0 (q1 ++ [.second i]) a b (Function.update f i .both) :=
  ⟨_, .second (by rw [h.cl, hi]) (by rw [hp]; exact h.sock1), h.at0, h.at1, by simpa [Net.put, Net.client] using h.sock0,
    by simp [Net.put, Net.client, hp], h.took0, h.took1, by simp [Net.client, Net.put, h.cl]⟩

theorem binds_self (s : Net) {port : BitVec 32} (h : htons port ≠ 0) : Binds s port (htons port) := by rw [Binds, if_neg h]

/-- Both servers get ready whether or not the ports are different. -/
theorem is_ready {c : ConnCfg} (hl : htons c.server1 = htons c.server0) (hs : htons c.server0 ≠ 0) (h0 : htons c.client0 ≠ 0) (h1 : htons c.client1 ≠ 0) :
    ∃ s, Reached c s ∧ Is c s [] [] [] [] netStart.cl ∧ s.peer = some .peer := by
  have e1 : NetStep c netStart _ := .listen0 rfl (binds_self _ hs)
  have e2 := NetStep.connect1 (c := c) (s := { netStart.put .peer0 (htons c.server0) [] with at0 := .listening }) (l := .peer0) (q := []) rfl
    (by simp [Net.put, hl])
  obtain ⟨s, hr, g1, g2, g3, g4, g5, g6, g7, g8⟩ : ∃ s, Reached c s ∧ s.at0 = .listening ∧ s.at1 = .linked ∧
      s.sock .peer0 = some (htons c.server1, [Conn.peer]) ∧ s.sock .cl0 = none ∧ s.sock .cl1 = none ∧ s.took0 = [] ∧ s.took1 = [] ∧ s.cl = netStart.cl :=
    ⟨_, (ReflTransGen.single e1).tail e2, rfl, rfl, by simp [Net.put], by simp [Net.put, netStart], by simp [Net.put, netStart], rfl, rfl, rfl⟩
  have e3 := NetStep.accept0 (c := c) g1 g3
  have e4 := NetStep.serve0 (c := c) (s := { s.put .peer0 (htons c.server1) [] with at0 := .linked, peer := some .peer }) rfl (binds_self _ h0)
  have e5 := NetStep.serve1 (c := c)
    (s := { ({ s.put .peer0 (htons c.server1) [] with at0 := .linked, peer := some .peer } : Net).put .cl0 (htons c.client0) [] with at0 := .serving })
    g2 (binds_self _ h1)
  exact ⟨_, ((hr.tail e3).tail e4).tail e5, ⟨rfl, rfl, by simp [Net.put], by simp [Net.put], g6, g7, g8⟩, rfl⟩

/-- C83 is false for runs of the client that overlap: whatever the ports, any two runs can be handled by server 0 in one order and by server 1 in
the other, so that each server pairs the query of the one with that of the other. -/
theorem C83_false_overlap {c : ConnCfg} (hc : PortsOk c) {i j : ℕ} (hij : i ≠ j) :
    ∃ s, Reached c s ∧ s.took0 = [.first i, .first j] ∧ s.took1 = [.second j, .second i] := by
  obtain ⟨s, hr, h, -⟩ := is_ready hc.link hc.server0 hc.client0 hc.client1
  obtain ⟨s1, r1, h⟩ := h.first0 (i := i) rfl (hc.to0 i)
  obtain ⟨s2, r2, h⟩ := h.first0 (i := j) (by simp [hij.symm, netStart]) (hc.to0 j)
  obtain ⟨s3, r3, h⟩ := h.second1 (i := j) (by simp) (hc.to1 j)
  obtain ⟨s4, r4, h⟩ := h.second1 (i := i) (by simp [hij]) (hc.to1 i)
  obtain ⟨s5, r5, h⟩ := h.take0
  obtain ⟨s6, r6, h⟩ := h.take0
  obtain ⟨s7, r7, h⟩ := h.take1
  obtain ⟨s8, r8, h⟩ := h.take1
  exact ⟨s8, (((((((hr.tail r1).tail r2).tail r3).tail r4).tail r5).tail r6).tail r7).tail r8, by simpa using h.took0, by simpa using h.took1⟩

/-- C83 is false for a run that starts before server 1 is ready, even if no two runs overlap: its first connection is made and stays with server 0, the
second is refused, and from then on server 0 is one query behind. -/
theorem C83_false_half {c : ConnCfg} (hc : PortsOk c) {i j : ℕ} (hij : i ≠ j) :
    ∃ s, Reached c s ∧ s.cl i = .halfRefused ∧ s.cl j = .both ∧ s.took0 = [.first i, .first j] ∧ s.took1 = [.second j] := by
  have e1 : NetStep c netStart _ := .listen0 rfl (binds_self _ hc.server0)
  have e2 := NetStep.connect1 (c := c) (s := { netStart.put .peer0 (htons c.server0) [] with at0 := .listening }) (l := .peer0) (q := []) rfl
    (by simp [Net.put, hc.link])
  obtain ⟨s, hr, g1, g2, g3, g4, g5, g6, g7, g8⟩ : ∃ s, Reached c s ∧ s.at0 = .listening ∧ s.at1 = .linked ∧
      s.sock .peer0 = some (htons c.server0, [Conn.peer]) ∧ s.sock .cl0 = none ∧ s.sock .cl1 = none ∧ s.took0 = [] ∧ s.took1 = [] ∧ s.cl = netStart.cl :=
    ⟨_, (ReflTransGen.single e1).tail e2, rfl, rfl, by simp [Net.put, hc.link], by simp [Net.put, netStart], by simp [Net.put, netStart], rfl, rfl, rfl⟩
  have e3 := NetStep.accept0 (c := c) g1 g3
  have e4 := NetStep.serve0 (c := c) (s := { s.put .peer0 (htons c.server0) [] with at0 := .linked, peer := some .peer }) rfl (binds_self _ hc.client0)
  obtain ⟨s, hr, k1, k2, k3, k4, k5, k6, k7, k8⟩ : ∃ s, Reached c s ∧ s.at0 = .serving ∧ s.at1 = .linked ∧ s.sock .peer0 = some (htons c.server0, []) ∧
      s.sock .cl0 = some (htons c.client0, []) ∧ s.sock .cl1 = none ∧ s.took0 = [] ∧ s.took1 = [] ∧ s.cl = netStart.cl :=
    ⟨_, (hr.tail e3).tail e4, rfl, g2, by simp [Net.put], by simp [Net.put], by simp [Net.put, g5], g6, g7, g8⟩
  have e5 := NetStep.first (c := c) (s := s) (i := i) (l := .cl0) (q := []) (by rw [k8]; rfl) (by rw [hc.to0, k4])
  have e6 := NetStep.secondRefused (c := c) (s := (s.put .cl0 (htons (c.port0 i)) ([] ++ [.first i])).client i .half) (i := i) (by simp [Net.client]) (by
    intro l p q hk
    rw [hc.to1]
    cases l
    · simp only [Net.client, Net.put, ne_eq, reduceCtorEq, not_false_eq_true, Function.update_of_ne, k3, Option.some.injEq, Prod.mk.injEq] at hk
      rw [← hk.1]; exact hc.apart1
    · simp only [Net.client, Net.put, Function.update_self, Option.some.injEq, Prod.mk.injEq] at hk
      rw [← hk.1, hc.to0]; exact hc.apart
    · simp [Net.client, Net.put, k5] at hk)
  have e7 := NetStep.serve1 (c := c) (s := ((s.put .cl0 (htons (c.port0 i)) ([] ++ [.first i])).client i .half).client i .halfRefused) k2
    (binds_self _ hc.client1)
  obtain ⟨s, hr, h⟩ : ∃ s, Reached c s ∧ Is c s [.first i] [] [] [] (Function.update netStart.cl i .halfRefused) :=
    ⟨_, ((hr.tail e5).tail e6).tail e7, k1, rfl, by simp [Net.put, Net.client, hc.to0], by simp [Net.put, Net.client], k6, k7,
      by simp [Net.client, Net.put, k8]⟩
  obtain ⟨s1, r1, h⟩ := h.first0 (i := j) (by simp [hij.symm, netStart]) (hc.to0 j)
  obtain ⟨s2, r2, h⟩ := h.second1 (i := j) (by simp) (hc.to1 j)
  obtain ⟨s3, r3, h⟩ := h.take0
  obtain ⟨s4, r4, h⟩ := h.take0
  obtain ⟨s5, r5, h⟩ := h.take1
  exact ⟨s5, ((((hr.tail r1).tail r2).tail r3).tail r4).tail r5, by simp [h.cl, hij], by simp [h.cl], by simpa using h.took0, by simpa using h.took1⟩

/-- C83 is false for client ports that agree modulo 2^16: both servers start without complaint, and server 0 can get the share meant for server 1,
server 1 the share meant for server 0. -/
theorem C83_false_same_port {c : ConnCfg} (hl : htons c.server1 = htons c.server0) (hs : htons c.server0 ≠ 0) (h0 : htons c.client0 ≠ 0)
    (h1 : htons c.client1 = htons c.client0) (i : ℕ) (p0 : htons (c.port0 i) = htons c.client0) (p1 : htons (c.port1 i) = htons c.client1) :
    ∃ s, Reached c s ∧ s.took0 = [.second i] ∧ s.took1 = [.first i] := by
  obtain ⟨s, hr, h, -⟩ := is_ready hl hs h0 (h1 ▸ h0)
  obtain ⟨s1, r1, h⟩ := h.first1 (i := i) rfl (p0.trans h1.symm)
  obtain ⟨s2, r2, h⟩ := h.second0 (i := i) (by simp) (p1.trans h1)
  obtain ⟨s3, r3, h⟩ := h.take0
  obtain ⟨s4, r4, h⟩ := h.take1
  exact ⟨s4, (((hr.tail r1).tail r2).tail r3).tail r4, h.took0, h.took1⟩

/-- In the same situation both shares of a run can end up at server 0, which then has all it needs to know the values. -/
theorem C83_false_both_shares {c : ConnCfg} (hl : htons c.server1 = htons c.server0) (hs : htons c.server0 ≠ 0) (h0 : htons c.client0 ≠ 0)
    (h1 : htons c.client1 = htons c.client0) (i : ℕ) (p0 : htons (c.port0 i) = htons c.client0) (p1 : htons (c.port1 i) = htons c.client1) :
    ∃ s, Reached c s ∧ s.took0 = [.first i, .second i] ∧ s.took1 = [] := by
  obtain ⟨s, hr, h, -⟩ := is_ready hl hs h0 (h1 ▸ h0)
  obtain ⟨s1, r1, h⟩ := h.first0 (i := i) rfl p0
  obtain ⟨s2, r2, h⟩ := h.second0 (i := i) (by simp) (p1.trans h1)
  obtain ⟨s3, r3, h⟩ := h.take0
  obtain ⟨s4, r4, h⟩ := h.take0
  exact ⟨s4, (((hr.tail r1).tail r2).tail r3).tail r4, h.took0, h.took1⟩

/-- C83 is false for a client that is given the port on which server 0 waits for server 1: it is taken for server 1. -/
theorem C83_false_impostor {c : ConnCfg} {i : ℕ} (hi : htons (c.port0 i) = htons c.server0) (hs : htons c.server0 ≠ 0) :
    ∃ s, Reached c s ∧ s.peer = some (.first i) := by
  have e1 : NetStep c netStart _ := .listen0 rfl (binds_self _ hs)
  have e2 := NetStep.first (c := c) (s := { netStart.put .peer0 (htons c.server0) [] with at0 := .listening }) (i := i) (l := .peer0) (q := []) rfl
    (by simp [Net.put, hi])
  have e3 := NetStep.accept0 (c := c) (p := htons (c.port0 i)) (x := .first i) (q := [])
    (s := (({ netStart.put .peer0 (htons c.server0) [] with at0 := .listening } : Net).put .peer0 (htons (c.port0 i)) ([] ++ [.first i])).client i .half)
    rfl (by simp [Net.put, Net.client])
  exact ⟨_, ((ReflTransGen.single e1).tail e2).tail e3, rfl⟩

/-- What holds of a connection that waits on the socket of server 0 for server 1 after server 1 has been accepted. -/
structure Lost (i : ℕ) (s : Net) : Prop where
  at0 : s.at0 ≠ .start ∧ s.at0 ≠ .listening
  waits : .first i ∈ s.queue .peer0
  gone : s.cl i ≠ .start
  not0 : .first i ∉ s.all0

theorem Lost.step {c : ConnCfg} {i : ℕ} {s t : Net} (h : Lost i s) (hst : NetStep c s t) : Lost i t := by
  have hk : s.all0 = s.took0 ++ s.queue .cl0 := rfl
  obtain ⟨ha, hw, hg, hn⟩ := h
  rw [hk, List.mem_append, not_or] at hn
  cases hst with
  | listen0 h' _ => exact absurd h' ha.1
  | accept0 h' _ => exact absurd h' ha.2
  | serve0 h' _ => exact ⟨by simp, by simpa [Net.queue, Net.put] using hw, hg, by simpa [Net.all0, Net.queue, Net.put] using hn.1⟩
  | take0 h' hs =>
    rw [queue_of hs] at hn
    exact ⟨ha, by simpa [Net.queue, Net.put] using hw, hg, by simpa [Net.all0, Net.queue, Net.put] using hn⟩
  | @connect1 l q h' hs =>
    refine ⟨ha, ?_, hg, ?_⟩
    · cases l
      · rw [queue_of hs] at hw; simpa [Net.queue, Net.put] using hw
      · simpa [Net.queue, Net.put] using hw
      · simpa [Net.queue, Net.put] using hw
    · cases l
      · simpa [Net.all0, Net.queue, Net.put] using hn
      · rw [queue_of hs] at hn; simpa [Net.all0, Net.queue, Net.put] using hn
      · simpa [Net.all0, Net.queue, Net.put] using hn
  | refused1 _ _ => exact ⟨ha, hw, hg, by rw [← not_or, ← List.mem_append] at hn; exact hn⟩
  | serve1 _ _ => exact ⟨ha, by simpa [Net.queue, Net.put] using hw, hg, by simpa [Net.all0, Net.queue, Net.put] using hn⟩
  | take1 _ _ => exact ⟨ha, by simpa [Net.queue, Net.put] using hw, hg, by simpa [Net.all0, Net.queue, Net.put] using hn⟩
  | @first j l q h' hs =>
    have hj : i ≠ j := fun e => hg (e ▸ h')
    refine ⟨ha, ?_, by simpa [Net.client, Net.put, hj] using hg, ?_⟩
    · cases l
      · rw [queue_of hs] at hw; simpa [Net.queue, Net.put, Net.client] using .inl hw
      · simpa [Net.queue, Net.put, Net.client] using hw
      · simpa [Net.queue, Net.put, Net.client] using hw
    · cases l
      · simpa [Net.all0, Net.queue, Net.put, Net.client] using hn
      · rw [queue_of hs] at hn; simpa [Net.all0, Net.queue, Net.put, Net.client, hj] using hn
      · simpa [Net.all0, Net.queue, Net.put, Net.client] using hn
  | @firstRefused j h' hs =>
    have hj : i ≠ j := fun e => hg (e ▸ h')
    exact ⟨ha, hw, by simpa [Net.client, hj] using hg, by rw [← not_or, ← List.mem_append] at hn; exact hn⟩
  | @second j l q h' hs =>
    refine ⟨ha, ?_, ?_, ?_⟩
    · cases l
      · rw [queue_of hs] at hw; simpa [Net.queue, Net.put, Net.client] using hw
      · simpa [Net.queue, Net.put, Net.client] using hw
      · simpa [Net.queue, Net.put, Net.client] using hw
    · by_cases hj : i = j
      · subst hj; simp [Net.client]
      · simpa [Net.client, Net.put, hj] using hg
    · cases l
      · simpa [Net.all0, Net.queue, Net.put, Net.client] using hn
      · rw [queue_of hs] at hn; simpa [Net.all0, Net.queue, Net.put, Net.client] using hn
      · simpa [Net.all0, Net.queue, Net.put, Net.client] using hn
  | @secondRefused j h' hs =>
    refine ⟨ha, hw, ?_, by rw [← not_or, ← List.mem_append] at hn; exact hn⟩
    by_cases hj : i = j
    · subst hj; simp [Net.client]
    · simpa [Net.client, hj] using hg

/-- C83 is false if server 0 has the same port, modulo 2^16, for clients and for server 1: it starts without complaint, but a run of the client can
be connected to the socket for server 1, from which nothing is accepted any more: its query waits for ever. -/
theorem C83_false_lost {c : ConnCfg} (hl : htons c.server1 = htons c.server0) (hs : htons c.server0 ≠ 0) (h0 : htons c.client0 = htons c.server0)
    (h1 : htons c.client1 ≠ 0) (i : ℕ) (p0 : htons (c.port0 i) = htons c.client0) :
    ∃ s, Reached c s ∧ s.at0 = .serving ∧ s.at1 = .serving ∧ s.cl i = .half ∧
      ∀ t, ReflTransGen (NetStep c) s t → .first i ∈ t.queue .peer0 ∧ .first i ∉ t.took0 := by
  obtain ⟨s, hr, h, -⟩ := is_ready hl hs (h0 ▸ hs) h1
  have hup : ∃ q, s.sock .peer0 = some (htons c.server0, q) := by
    have key : ∀ s, Reached c s → (∀ p q, s.sock .peer0 = some (p, q) → p = htons c.server0) ∧ (s.at0 ≠ .start → (s.sock .peer0).isSome) := by
      intro s hr
      induction hr with
      | refl => simp [netStart]
      | tail _ hst ih =>
        cases hst with
        | listen0 _ hb => exact ⟨by simp [Net.put, binds_of hb hs], by simp [Net.put]⟩
        | accept0 ha hk => exact ⟨by simpa [Net.put] using ih.1 _ _ hk, by simp [Net.put]⟩
        | serve0 ha hb => exact ⟨by simpa [Net.put] using ih.1, fun _ => by simpa [Net.put] using ih.2 (by simp [ha])⟩
        | take0 ha hk => exact ⟨by simpa [Net.put] using ih.1, fun _ => by simpa [Net.put] using ih.2 (by simp [ha])⟩
        | @connect1 l q ha hk =>
          cases l
          · exact ⟨by simp [Net.put, hl], by simp [Net.put]⟩
          · exact ⟨by simpa [Net.put] using ih.1, by simpa [Net.put] using ih.2⟩
          · exact ⟨by simpa [Net.put] using ih.1, by simpa [Net.put] using ih.2⟩
        | refused1 _ _ => exact ih
        | serve1 _ _ => exact ⟨by simpa [Net.put] using ih.1, by simpa [Net.put] using ih.2⟩
        | take1 _ _ => exact ⟨by simpa [Net.put] using ih.1, by simpa [Net.put] using ih.2⟩
        | @first j l q ha hk =>
          cases l
          · exact ⟨by simpa [Net.put, Net.client] using ih.1 _ _ hk, by simp [Net.put, Net.client]⟩
          · exact ⟨by simpa [Net.put, Net.client] using ih.1, by simpa [Net.put, Net.client] using ih.2⟩
          · exact ⟨by simpa [Net.put, Net.client] using ih.1, by simpa [Net.put, Net.client] using ih.2⟩
        | firstRefused _ _ => exact ih
        | @second j l q ha hk =>
          cases l
          · exact ⟨by simpa [Net.put, Net.client] using ih.1 _ _ hk, by simp [Net.put, Net.client]⟩
          · exact ⟨by simpa [Net.put, Net.client] using ih.1, by simpa [Net.put, Net.client] using ih.2⟩
          · exact ⟨by simpa [Net.put, Net.client] using ih.1, by simpa [Net.put, Net.client] using ih.2⟩
        | secondRefused _ _ => exact ih
    obtain ⟨⟨p, q⟩, hk⟩ := Option.isSome_iff_exists.1 ((key s hr).2 (by rw [h.at0]; simp))
    exact ⟨q, by rw [hk, (key s hr).1 _ _ hk]⟩
  obtain ⟨q, hk⟩ := hup
  have e := NetStep.first (c := c) (s := s) (i := i) (l := .peer0) (q := q) (by rw [h.cl]; rfl) (by rw [p0, h0]; exact hk)
  have hlost : Lost i ((s.put .peer0 (htons (c.port0 i)) (q ++ [.first i])).client i .half) := by
    refine ⟨by simp [Net.client, Net.put, h.at0], by simp [Net.queue, Net.put, Net.client], by simp [Net.client], ?_⟩
    simp [Net.all0, Net.queue, Net.put, Net.client, h.took0, h.sock0]
  refine ⟨_, hr.tail e, h.at0, h.at1, by simp [Net.client], fun t ht => ?_⟩
  have : Lost i t := by
    induction ht with
    | refl => exact hlost
    | tail _ hst ih => exact ih.step hst
  exact ⟨this.waits, fun hm => this.not0 (List.mem_append_left _ hm)⟩

/-- Server 1 has to be started after server 0: if it gets to its `connect` before server 0 listens, whatever the ports, it fails and stays away. -/
theorem C83_false_early {c : ConnCfg} {s : Net} (h : Reached c s) (h0 : s.at0 = .start) :
    (s.at1 = .start ∨ s.at1 = .dead) ∧ (s.at1 = .dead → ∀ t, ReflTransGen (NetStep c) s t → t.at1 = .dead) ∧
    (s.at1 = .start → ∃ t, NetStep c s t ∧ t.at0 = .start ∧ t.at1 = .dead) := by
  have key : ∀ s, Reached c s → s.at0 = .start → (s.at1 = .start ∨ s.at1 = .dead) ∧ ∀ l, s.sock l = none := by
    intro s h
    induction h with
    | refl => simp [netStart]
    | tail _ hst ih =>
      intro h0
      cases hst with
      | listen0 _ _ => cases h0
      | accept0 _ _ => cases h0
      | serve0 _ _ => cases h0
      | take0 ha _ => exact absurd (h0.symm.trans ha) (by simp)
      | connect1 _ hk => exact absurd hk (by rw [(ih h0).2]; simp)
      | refused1 _ _ => exact ⟨.inr rfl, (ih h0).2⟩
      | serve1 ha _ => exact absurd (ih h0).1 (by rw [ha]; simp)
      | take1 ha _ => exact absurd (ih h0).1 (by rw [ha]; simp)
      | first _ hk => exact absurd hk (by rw [(ih h0).2]; simp)
      | firstRefused _ _ => exact ih h0
      | second _ hk => exact absurd hk (by rw [(ih h0).2]; simp)
      | secondRefused _ _ => exact ih h0
  refine ⟨(key s h h0).1, fun hd t ht => ?_, fun h1 => ⟨_, .refused1 h1 fun l p q hk => ?_, h0, rfl⟩⟩
  · induction ht with
    | refl => exact hd
    | tail _ hst ih => cases hst <;> simp_all [Net.put, Net.client]
  · rw [(key s h h0).2] at hk; cases hk

/-! ## What it means for the answers -/

/-- The environment in which a server handles a connection, given the queries of the runs: over its first connection a run sends what is meant for
server 0, over its second what is meant for server 1. -/
def envOf (r : ℕ → Batch × Env × Env) (other : Env) : Conn → Env
  | .peer => other
  | .first i => (r i).2.1
  | .second i => (r i).2.2

/-- In an execution in which the runs of the client do not overlap while they connect, every query is answered, and as it should be. -/
theorem C83_answers_partial {pc : ConnCfg} (hpc : PortsOk pc) {s : Net} (h : Orderly pc s) (hlen : s.took0.length = s.took1.length)
    (c : StoreCfg) {g0 g1 : StoreRng} (hg : GoodRng intModulus g0) {nbits : ℕ} (coef : ℕ → ℤ) (r : ℕ → Batch × Env × Env) (other : Env)
    (hr : ∀ i, RoundOk nbits (r i)) {y : Shared} {s0 s1 : Srv} (hs : InStep y s0 s1) :
    ∃ (ids : List ℕ) (as : List Answer) (s0' s1' : Srv) (y' : Shared), s.took0 = ids.map .first ∧ s.took1 = ids.map .second ∧
      Always (session false c g0 nbits coef (s.took0.map (envOf r other)) s0) (session true c g1 nbits coef (s.took1.map (envOf r other)) s1)
        (as, s0') ((ids.map r).map (·.1.quiet), s1') ∧ SessionAnswers nbits coef y (ids.map r) as y' ∧ InStep y' s0' s1' := by
  obtain ⟨ids, h1, h0⟩ := (h.inOrder hpc).same
  have e1 : s.took1 = (ids.take s.took1.length).map .second := by
    rw [List.map_take, ← h1, Net.all1, List.take_left]
  have hle : s.took1.length ≤ ids.length := by
    have := congrArg List.length h1; simp [Net.all1] at this; omega
  have e0 : s.took0 = (ids.take s.took1.length).map .first := by
    rcases h0 with ⟨h0, -⟩ | ⟨j, h0, -⟩
    · rw [List.map_take, ← h0, Net.all0, ← hlen, List.take_left]
    · rw [← List.take_append_of_le_length (l₂ := [j]) hle, List.map_take, ← h0, Net.all0, ← hlen, List.take_left]
  generalize ids.take s.took1.length = ks at e0 e1
  obtain ⟨as, s0', s1', y', hP, hA, hI⟩ := C47_session_partial c (g1 := g1) hg coef (ks.map r)
    (fun q hq => by obtain ⟨i, -, rfl⟩ := List.mem_map.1 hq; exact hr i) hs
  refine ⟨ks, as, s0', s1', y', e0, e1, ?_, hA, hI⟩
  rw [e0, e1]
  simpa only [List.map_map, Function.comp_def, envOf] using hP

/-- Two runs that overlap, with queries of one operation and different keys: there is an execution in which both are refused, in every schedule of
the servers, and nothing tells either why. -/
theorem C83_false_answers {pc : ConnCfg} (hpc : PortsOk pc) (c : StoreCfg) {g0 g1 : StoreRng} (hg : GoodRng intModulus g0) {nbits : ℕ} (coef : ℕ → ℤ)
    (r : ℕ → Batch × Env × Env) (other : Env) {i j : ℕ} (hij : i ≠ j) (hr : OneKind nbits [r i, r j]) {y : Shared} {s0 s1 : Srv} (hs : InStep y s0 s1) :
    ∃ s, Reached pc s ∧ s.cl i = .both ∧ s.cl j = .both ∧ ∃ as s0' s1' y',
      Always (session false c g0 nbits coef (s.took0.map (envOf r other)) s0) (session true c g1 nbits coef (s.took1.map (envOf r other)) s1)
        (as, s0') ([(r i).1.quiet, (r j).1.quiet], s1') ∧ as.length = 2 ∧ (∀ a ∈ as, a.Refused) ∧ InStep y' s0' s1' := by
  obtain ⟨s, h, t0, t1⟩ := C83_false_overlap hpc hij
  obtain ⟨ids, -, -, m1⟩ := (h.placed hpc).e1
  obtain ⟨ids', e1, -, m1'⟩ := (h.placed hpc).e1
  have hb : ∀ k, Conn.second k ∈ s.took1 → s.cl k = .both := by
    intro k hk
    have : Conn.second k ∈ s.all1 := List.mem_append_left _ hk
    rw [e1, List.mem_map] at this
    obtain ⟨k', hk', e⟩ := this
    rw [← m1']; simpa using (by simpa using e : k' = k) ▸ hk'
  have mi : r i ∈ [r i, r j] := by simp
  have mj : r j ∈ [r i, r j] := by simp
  have hap := hr.apart
  simp only [List.pairwise_cons, List.mem_singleton, forall_eq] at hap
  have hcr : ∀ q ∈ [(r i, r j), (r j, r i)], Crossed nbits q := by
    intro q hq
    simp only [List.mem_cons, List.not_mem_nil, or_false] at hq
    rcases hq with rfl | rfl
    · exact ⟨hr.like _ mi _ mj, hr.ok _ mi, hr.ok _ mj, ⟨_, hr.arrives _ mi⟩, ⟨_, hr.arrives _ mj⟩, hr.some0 _ mi, hap.1.1, hr.ord _ mj, hr.draw _ mj⟩
    · exact ⟨hr.like _ mj _ mi, hr.ok _ mj, hr.ok _ mi, ⟨_, hr.arrives _ mj⟩, ⟨_, hr.arrives _ mi⟩, hr.some0 _ mj, hap.1.2, hr.ord _ mi, hr.draw _ mi⟩
  obtain ⟨as, s0', s1', y', hP, hl, hA, hI⟩ := crossed_session c (g1 := g1) hg coef _ hcr hs
  refine ⟨s, h, hb i (by simp [t1]), hb j (by simp [t1]), as, s0', s1', y', ?_, by simpa using hl, hA, hI⟩
  rw [t0, t1]
  simpa [envOf] using hP

/-! ## Examples -/

/-- The ports of the README meet the hypotheses. -/
example : PortsOk ⟨8800#32, 8888#32, 8801#32, 8888#32, fun _ => 8800#32, fun _ => 8801#32⟩ := by
  constructor <;> simp [htons]

/-- Ports that are different but agree modulo 2^16 meet the hypotheses of `C83_false_same_port`. -/
example : htons 74336#32 = htons 8800#32 ∧ htons 8800#32 ≠ 0 := by simp [htons]

end Verif

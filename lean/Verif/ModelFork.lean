import Verif.ModelBytes

/-!
# Two-way exchanges over sockets with bounded buffers

`exch` (ModelProc) treats a send as something that never blocks. Here the buffer of each direction holds at most `cap` bytes, and a send blocks while the
buffer is full. In every two-way exchange the code sends in a forked child, receives in the parent and then waits for the child
(correlated.cpp:137-165, 236-262; server.cpp:226-243, 245-271; he_triples.cpp:19-48); with `do_fork` false parent and child are the same process, which sends
first. Sizes of single `send` and `recv` transfers are left open. Simplification: `fork` succeeds (if it
fails, `pid` is -1, nobody sends, and the exchange hangs).
-/

namespace Verif

/-- One server inside a sequence of exchanges: bytes the child has still to send, number of bytes the parent has still to receive, the exchanges
that follow, and everything received so far (correlated.cpp:137-165, server.cpp:226-271). -/
structure Side where
  out : Bytes
  want : ℕ
  later : List (Bytes × ℕ)
  log : Bytes

/-- Both servers and the contents of the two buffers (the socket `serverfd`, correlated.cpp:141-150). -/
structure XSys where
  a : Side
  b : Side
  wab : Bytes
  wba : Bytes

/-- The steps of server `a`; `w` is the buffer it writes to, `v` the one it reads from. The next exchange starts when everything is received and the
child has ended (`waitpid`, correlated.cpp:165, server.cpp:243). Without fork the send comes before the receive in the same process
(correlated.cpp:138-145 with `pid` 0). -/
inductive SideStep (fork : Bool) (cap : ℕ) : Side × Bytes × Bytes → Side × Bytes × Bytes → Prop
  | send (x out : Bytes) (want : ℕ) (later : List (Bytes × ℕ)) (log w v : Bytes) (hx : x ≠ []) (h : w.length + x.length ≤ cap) :
      SideStep fork cap (⟨x ++ out, want, later, log⟩, w, v) (⟨out, want, later, log⟩, w ++ x, v)
  | recv (out y : Bytes) (want : ℕ) (later : List (Bytes × ℕ)) (log w v : Bytes) (hy : y ≠ []) (h : y.length ≤ want) (hf : fork = true ∨ out = []) :
      SideStep fork cap (⟨out, want, later, log⟩, w, y ++ v) (⟨out, want - y.length, later, log ++ y⟩, w, v)
  | next (m : Bytes) (n : ℕ) (later : List (Bytes × ℕ)) (log w v : Bytes) :
      SideStep fork cap (⟨[], 0, (m, n) :: later, log⟩, w, v) (⟨m, n, later, log⟩, w, v)

/-- A step of either server (two processes, server.cpp:226-243). -/
inductive XStep (fork : Bool) (cap : ℕ) : XSys → XSys → Prop
  | left (a b a' : Side) (w v w' v' : Bytes) (h : SideStep fork cap (a, w, v) (a', w', v')) : XStep fork cap ⟨a, b, w, v⟩ ⟨a', b, w', v'⟩
  | right (a b b' : Side) (w v w' v' : Bytes) (h : SideStep fork cap (b, v, w) (b', v', w')) : XStep fork cap ⟨a, b, w, v⟩ ⟨a, b', w', v'⟩

/-- Any number of steps (any schedule of server.cpp:226-271). -/
inductive XSteps (fork : Bool) (cap : ℕ) : XSys → XSys → Prop
  | refl (s : XSys) : XSteps fork cap s s
  | tail {s t u : XSys} : XSteps fork cap s t → XStep fork cap t u → XSteps fork cap s u

/-- Nothing can move (deadlock, or both past their last `waitpid`, server.cpp:271). -/
def XStuck (fork : Bool) (cap : ℕ) (s : XSys) : Prop := ∀ t, ¬ XStep fork cap s t

/-- Both servers before a sequence of exchanges of the given pairs of messages (server.cpp:226). -/
def xStart (rounds : List (Bytes × Bytes)) : XSys :=
  ⟨⟨[], 0, rounds.map fun r => (r.1, r.2.length), []⟩, ⟨[], 0, rounds.map fun r => (r.2, r.1.length), []⟩, [], []⟩

/-- Both servers after the exchanges: each has received all of the other's messages, nothing is left in the buffers
(server.cpp:271). -/
def xDone (rounds : List (Bytes × Bytes)) : XSys :=
  ⟨⟨[], 0, [], (rounds.map (·.2)).flatten⟩, ⟨[], 0, [], (rounds.map (·.1)).flatten⟩, [], []⟩

end Verif

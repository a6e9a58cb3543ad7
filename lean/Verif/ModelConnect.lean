import Mathlib.Logic.Relation
import Mathlib.Logic.Function.Basic
import Mathlib.Data.Nat.Notation

/-!
# Connection set-up (server.cpp:62-116, 1466-1481, 1491-1512; client.cpp:1518-1549)

Two servers and any number of runs of the client on one machine, as `SERVER0_IP` and `SERVER1_IP` say (server.cpp:19-20, client.cpp:34-35:
both are 127.0.0.1). A step is one system call of one of the processes; the order of the steps is arbitrary. Left out: programs other than
these, calls that fail for other reasons than a missing listener (no permission, no descriptors), the limit of the queue (`listen(sockfd, 2)`:
a call of `connect` on a full queue waits), the connections of the OT library on ports 60051 and 60052, and what is sent over the connections:
a server may pass from one of its calls to the next at any time.
-/

namespace Verif

/-- `htons(port)` (server.cpp:75, 110; client.cpp:1536-1537): the `int` is converted to `uint16_t`. The byte order does not matter here. -/
def htons (port : BitVec 32) : BitVec 16 := port.setWidth 16

/-- The ports on the command lines, as `atoi` returned them: client port and server port of each server (server.cpp:1454-1455), and the two
ports given to the `i`-th run of the client (client.cpp:1497-1498). -/
structure ConnCfg where
  client0 : BitVec 32
  server0 : BitVec 32
  client1 : BitVec 32
  server1 : BitVec 32
  port0 : ℕ → BitVec 32
  port1 : ℕ → BitVec 32

/-- The connections made: by server 1 (server.cpp:114), and by run `i` of the client, first to "server 0" (client.cpp:1545), then to
"server 1" (client.cpp:1548). -/
inductive Conn where
  | peer
  | first (i : ℕ)
  | second (i : ℕ)
  deriving DecidableEq, Repr

/-- The sockets that are listened on: `sockfd_server` of server 0 (server.cpp:1471), `sockfd` of either server (server.cpp:1493). None of them
is ever closed. -/
inductive Lid where
  | peer0
  | cl0
  | cl1
  deriving DecidableEq, Repr

/-- Where a server is: not started, waiting in `accept` (server.cpp:93, server 0 only), connected to the other server, in the main loop
(server.cpp:1495), or gone through `error_exit`. -/
inductive SrvAt where
  | start
  | listening
  | linked
  | serving
  | dead
  deriving DecidableEq, Repr

/-- Where a run of the client is: not started, between its two calls of `connect`, past both; `refused` and `halfRefused`: gone through
`error_exit` at the first or second call. -/
inductive CliAt where
  | start
  | half
  | both
  | refused
  | halfRefused
  deriving DecidableEq, Repr

/-- The state of all processes. `sock l` is the port socket `l` is bound to and its queue of connections not accepted yet; `peer` the connection
server 0 takes for that of server 1 (`newsockfd_server`); `took0` and `took1` the connections accepted in the main loops, oldest first. -/
structure Net where
  sock : Lid → Option (BitVec 16 × List Conn)
  at0 : SrvAt
  at1 : SrvAt
  peer : Option Conn
  cl : ℕ → CliAt
  took0 : List Conn
  took1 : List Conn

/-- Nothing is started. -/
def netStart : Net := ⟨fun _ => none, .start, .start, none, fun _ => .start, [], []⟩

/-- `bind` (server.cpp:77) on the given port gives `p`: the kernel chooses a free one for 0. All sockets have `SO_REUSEPORT` set (server.cpp:69,
`reuse` is 1 in all calls), so that a port that is in use by the other server, or by the other socket of the same one, is no error. -/
def Binds (s : Net) (port : BitVec 32) (p : BitVec 16) : Prop :=
  if htons port = 0 then p ≠ 0 ∧ ∀ l q, s.sock l ≠ some (p, q) else p = htons port

/-- The socket `l` is set to the given port and queue. -/
def Net.put (s : Net) (l : Lid) (p : BitVec 16) (q : List Conn) : Net := { s with sock := Function.update s.sock l (some (p, q)) }

/-- No socket listens on the port: `connect` fails. -/
def Net.Closed (s : Net) (port : BitVec 32) : Prop := ∀ l p q, s.sock l = some (p, q) → p ≠ htons port

/-- Run `i` of the client gets to `a`. -/
def Net.client (s : Net) (i : ℕ) (a : CliAt) : Net := { s with cl := Function.update s.cl i a }

/-- One system call. A `connect` reaches one of the sockets that listen on the port, whichever the kernel chooses. -/
inductive NetStep (c : ConnCfg) : Net → Net → Prop
  /-- `bind_and_listen` in `server0_listen` (server.cpp:89, 1471) -/
  | listen0 {s : Net} {p : BitVec 16} : s.at0 = .start → Binds s c.server0 p → NetStep c s { s.put .peer0 p [] with at0 := .listening }
  /-- `accept` in `server0_listen` (server.cpp:93) -/
  | accept0 {s : Net} {p : BitVec 16} {x : Conn} {q : List Conn} : s.at0 = .listening → s.sock .peer0 = some (p, x :: q) →
      NetStep c s { s.put .peer0 p q with at0 := .linked, peer := some x }
  /-- `bind_and_listen` of server 0 for the clients (server.cpp:1493) -/
  | serve0 {s : Net} {p : BitVec 16} : s.at0 = .linked → Binds s c.client0 p → NetStep c s { s.put .cl0 p [] with at0 := .serving }
  /-- `accept` in the main loop of server 0 (server.cpp:1511) -/
  | take0 {s : Net} {p : BitVec 16} {x : Conn} {q : List Conn} : s.at0 = .serving → s.sock .cl0 = some (p, x :: q) →
      NetStep c s { s.put .cl0 p q with took0 := s.took0 ++ [x] }
  /-- `connect` in `server1_connect` (server.cpp:114) -/
  | connect1 {s : Net} {l : Lid} {q : List Conn} : s.at1 = .start → s.sock l = some (htons c.server1, q) →
      NetStep c s { s.put l (htons c.server1) (q ++ [.peer]) with at1 := .linked }
  /-- `connect` fails and so does server 1 (server.cpp:115); there is no second attempt -/
  | refused1 {s : Net} : s.at1 = .start → s.Closed c.server1 → NetStep c s { s with at1 := .dead }
  /-- `bind_and_listen` of server 1 for the clients (server.cpp:1493) -/
  | serve1 {s : Net} {p : BitVec 16} : s.at1 = .linked → Binds s c.client1 p → NetStep c s { s.put .cl1 p [] with at1 := .serving }
  /-- `accept` in the main loop of server 1 (server.cpp:1511) -/
  | take1 {s : Net} {p : BitVec 16} {x : Conn} {q : List Conn} : s.at1 = .serving → s.sock .cl1 = some (p, x :: q) →
      NetStep c s { s.put .cl1 p q with took1 := s.took1 ++ [x] }
  /-- the first `connect` of the client (client.cpp:1545) -/
  | first {s : Net} {i : ℕ} {l : Lid} {q : List Conn} : s.cl i = .start → s.sock l = some (htons (c.port0 i), q) →
      NetStep c s ((s.put l (htons (c.port0 i)) (q ++ [.first i])).client i .half)
  /-- it fails (client.cpp:1546) -/
  | firstRefused {s : Net} {i : ℕ} : s.cl i = .start → s.Closed (c.port0 i) → NetStep c s (s.client i .refused)
  /-- the second `connect` (client.cpp:1548) -/
  | second {s : Net} {i : ℕ} {l : Lid} {q : List Conn} : s.cl i = .half → s.sock l = some (htons (c.port1 i), q) →
      NetStep c s ((s.put l (htons (c.port1 i)) (q ++ [.second i])).client i .both)
  /-- it fails (client.cpp:1549); the first connection has been made -/
  | secondRefused {s : Net} {i : ℕ} : s.cl i = .half → s.Closed (c.port1 i) → NetStep c s (s.client i .halfRefused)

/-- `s` occurs in some execution. -/
def Reached (c : ConnCfg) (s : Net) : Prop := Relation.ReflTransGen (NetStep c) netStart s

end Verif

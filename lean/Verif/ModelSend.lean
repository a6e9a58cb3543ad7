import Verif.ModelLinReg
import Verif.ModelFreq

/-!
# The senders of net_share.cpp, client.cpp and server.cpp over a socket that takes part of a message or fails

`ModelNet` gives the bytes a call sends if every `send` takes everything. Here each POSIX `send` has its own outcome and the
results of the calls are followed. A call to a closed connection raises `SIGPIPE` unless it is ignored; the error here stands for all others. Counts are
integers: they are below `2^31` for messages shorter than that.
-/

namespace Verif

/-- What one call of POSIX `send` does. `upTo k`: there is room for `k + 1` bytes (on a blocking socket a signal may end the call after a part);
`err`: the result is -1. -/
inductive SendEv where
  | upTo (k : ℕ)
  | err
  deriving DecidableEq, Repr

/-- How a sender ends: it still waits after the listed events, it does something undefined, it ends the process, or it returns. `wire` are the bytes
it has put on the connection. -/
inductive SndRes where
  | waits
  | undef
  | exits (wire : Bytes)
  | done (ret : ℤ) (wire : Bytes) (evs : List SendEv)
  deriving DecidableEq, Repr

/-- A sender, as a function of the outcomes of the coming calls of `send`. -/
abbrev Snd := List SendEv → SndRes

/-- `send(sockfd, buf, len, 0)` (net_share.cpp:32 and throughout). -/
def posixSend (bs : Bytes) : Snd
  | [] => .waits
  | .err :: evs => .done (-1) [] evs
  | .upTo k :: evs => .done (min (k + 1) bs.length : ℕ) (bs.take (k + 1)) evs

/-- Return a value. -/
def Snd.retn (x : ℤ) : Snd := fun evs => .done x [] evs

/-- Call `f`, then continue with its result. -/
def Snd.bind (f : Snd) (k : ℤ → Snd) : Snd := fun evs => match f evs with
  | .done x w evs => match k x evs with
    | .done y w' evs => .done y (w ++ w') evs
    | .exits w' => .exits (w ++ w')
    | r => r
  | r => r

/-- `ret = f(); if (ret <= 0) return ret; else total += ret;` for each part, then `return total;` (net_share.cpp:146-154 and throughout). -/
def sendSeq : List Snd → ℤ → Snd
  | [], total => .retn total
  | f :: fs, total => f.bind fun ret => if ret ≤ 0 then .retn ret else sendSeq fs (total + ret)

/-- `ret = f(); ret += g();` without a look at the results (net_share.cpp:224-226, 488-490; client.cpp:64-65, 72-73). -/
def sendSum (f g : Snd) : Snd := f.bind fun a => g.bind fun b => .retn (a + b)

/-- `send_string` (net_share.cpp:146-154). -/
def sendString (x : Bytes) : Snd := sendSeq [posixSend (encSize (BitVec.ofNat 64 x.length)), posixSend x] 0

/-- A message that may not fit into its buffer, sent by one call. -/
def sendOne : Option Bytes → Snd
  | some bs => sendSeq [posixSend bs] 0
  | none => fun _ => .undef

/-- `send_fmpz` (net_share.cpp:169-186). -/
def sendFmpz (x : ℤ) : Snd := sendOne (encFmpz x)

/-- `send_fmpz_batch` (net_share.cpp:212-238, fixed-size variant). -/
def sendFmpzs (xs : List ℤ) : Snd :=
  if _h : maxFmpzBatch < xs.length then sendSum (sendOne (encAll encFmpz (xs.take maxFmpzBatch))) (sendFmpzs (xs.drop maxFmpzBatch))
  else sendOne (encAll encFmpz xs)
termination_by xs.length
decreasing_by have := maxFmpzBatch_pos; simp; omega

/-- `send_Cor`, `send_CorShare` (net_share.cpp:280-287, 298-305). -/
def sendCorShare (c : CorShare) : Snd := sendSeq [sendFmpz c.D, sendFmpz c.E] 0

/-- `send_CorShare_batch` (net_share.cpp:316-332). -/
def sendCorShares (cs : List CorShare) : Snd := sendSeq [sendFmpzs (cs.map (·.D)), sendFmpzs (cs.map (·.E))] 0

/-- `send_BeaverTriple`, `send_BeaverTripleShare` (net_share.cpp:408-417, 430-439). -/
def sendTriple (t : Triple) : Snd := sendSeq [sendFmpz t.A, sendFmpz t.B, sendFmpz t.C] 0

/-- `send_ClientPacket` (net_share.cpp:352-378). -/
def sendPacket (x : Packet) : Snd :=
  sendSeq (x.mulShares.map sendFmpz ++ [sendFmpz x.f0, sendFmpz x.g0, sendFmpz x.h0] ++ x.hPoints.map sendFmpz ++ [sendTriple x.triple]) 0

/-- `send_DaBit` (net_share.cpp:466-473). -/
def sendDaBit (d : DaBit) : Snd := sendSeq [sendFmpz d.bp, posixSend (encBool d.b2)] 0

/-- One chunk of `send_DaBit_batch` (net_share.cpp:494-511). -/
def sendDaBitChunk (ds : List DaBit) : Snd := sendSeq [sendFmpzs (ds.map (·.bp)), posixSend (encBools (ds.map (·.b2)))] 0

/-- `send_DaBit_batch` (net_share.cpp:484-512). -/
def sendDaBits (ds : List DaBit) : Snd :=
  if _h : maxDabitBatch < ds.length then sendSum (sendDaBitChunk (ds.take maxDabitBatch)) (sendDaBits (ds.drop maxDabitBatch))
  else sendDaBitChunk ds
termination_by ds.length
decreasing_by have := maxDabitBatch_pos; simp; omega

/-- `send_EdaBit_batch` (net_share.cpp:561-580). -/
def sendEdaBits (es : List EdaBit) : Snd := sendSeq [sendFmpzs (es.map (·.r)), posixSend (encBools (es.flatMap (·.b)))] 0

/-- `send_maxshare` (client.cpp:61-68). -/
def sendMaxShare (e : Bytes × List U64) : Snd := sendSum (posixSend e.1) (posixSend (encWords e.2))

/-- `send_freqshare` (client.cpp:70-75). -/
def sendFreqShare (e : Bytes × List Bool) : Snd := sendSum (posixSend e.1) (posixSend (encBools e.2))

/-- `send_linregshare` (client.cpp:77-91). -/
def sendLinShare (e : Bytes × LinRow) : Snd :=
  sendSum (sendSum (sendSum (sendSum (posixSend e.1) (posixSend (encWords e.2.x))) (posixSend (encU64 e.2.y))) (posixSend (encWords e.2.x2)))
    (posixSend (encWords e.2.xy))

/-- `send_to_server` (client.cpp:94-99). -/
def sendToServer (bs : Bytes) : Snd := (posixSend bs).bind fun ret => if ret < 0 then fun _ => .exits [] else .retn ret

/-- `send_out` (server.cpp:56-60): the result of `send` is stored in a `size_t`, which is never below 0. -/
def sendOut (bs : Bytes) : Snd := (posixSend bs).bind fun ret =>
  let r : U64 := BitVec.ofInt 64 ret
  if r ≤ 0#64 then fun _ => .exits [] else .retn r.toNat

/-- The keys sent by server 1 (server.cpp:324-327, 414-417, 515-518, 622-624, 759-761, 996-998, 1244-1246); the sum of the results, which is printed, is left out. -/
def sendOutKeys : List Bytes → Snd
  | [] => .retn 0
  | k :: ks => (sendOut k).bind fun _ => sendOutKeys ks

end Verif

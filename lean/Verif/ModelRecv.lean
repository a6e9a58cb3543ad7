import Verif.ModelBytes

/-!
# recv_in over a socket that fragments, ends or fails (net_share.cpp:21-29)
-/

namespace Verif

/-- What one call of POSIX `recv` does. `chunk k`: at most `k` bytes are available now (the call returns between 1
and the requested number of bytes when `k ≥ 1`); `eof`: the peer has closed, result 0; `err`: result -1. -/
inductive RecvEv where
  | chunk (k : ℕ)
  | eof
  | err
  deriving DecidableEq, Repr

/-- Overwrite `buf` from position `i` with `d`. -/
def writeAt (buf : Bytes) (i : ℕ) (d : Bytes) : Bytes := buf.take i ++ d ++ buf.drop (i + d.length)

/-- Result of `recv_in`: the `int` returned, the buffer, the rest of the stream, the unused events. -/
structure RecvOut where
  ret : ℤ
  buf : Bytes
  rest : Bytes
  evs : List RecvEv
  deriving DecidableEq, Repr

/-- The loop of `recv_in` (net_share.cpp:24-27). `bytes_read` and `tmp` are 32-bit unsigned, `len` is a `size_t`,
the addition `bytes_read += tmp` wraps, and the return value is the 32-bit pattern read as `int`. The events say
what the successive `recv` calls do; the stream holds the bytes the peer sends.
`none`: the call is still waiting after the listed events (also when `chunk` is listed but no byte is left).
The requested length in line 25 is `len - bytes_read`. -/
def recvInLoop (len : U64) : List RecvEv → BitVec 32 → Bytes → Bytes → Option RecvOut
  | evs, n, buf, s =>
    if n.setWidth 64 < len then
      match evs with
      | [] => none
      | .eof :: evs => some ⟨0, buf, s, evs⟩
      | .err :: evs => recvInLoop len evs (n + 0xFFFFFFFF#32) buf s
      | .chunk k :: evs =>
        let d := s.take (min k (len - n.setWidth 64).toNat)
        if d.length = 0 then none
        else recvInLoop len evs (n + BitVec.ofNat 32 d.length) (writeAt buf n.toNat d) (s.drop d.length)
    else some ⟨n.toInt, buf, s, evs⟩
termination_by evs => evs.length

/-- `recv_in(sockfd, buf, len)` (net_share.cpp:21-29): `buf` is the prior content of the buffer. -/
def recvIn (len : U64) (evs : List RecvEv) (buf s : Bytes) : Option RecvOut := recvInLoop len evs 0#32 buf s

end Verif

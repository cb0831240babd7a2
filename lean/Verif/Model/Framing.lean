import Verif.Model.Bytes
import Verif.Model.Wire

/-!
# TCP framing

`pkg/core/send.go` (writer goroutine) and `pkg/core/receive.go` (reader goroutine).  TCP itself is taken as a reliable
ordered byte stream; the reader is a byte automaton, so how the stream is cut into segments does not matter by construction.
-/

namespace DyCAPS

/-- The writer goroutine's two `conn.Write` calls for one message, pkg/core/send.go:38-58. -/
def frame (m : PMessage) : Bytes :=
  let byt := marshal m
  intToBytes byt.length ++ byt

/-- The bytes written for the messages popped from the send channel, in order (send.go:38). -/
def sendStream (ms : List PMessage) : Bytes := ms.flatMap frame

/-- Where the per-connection goroutine of `MakeReceiveChannel` is, pkg/core/receive.go:46-69.
`dead` is `log.Fatalln` (lines 55, 62): the whole process has exited. -/
inductive RecvPos where
  | header (got : Bytes)
  | body (length : ℕ) (got : Bytes)
  | dead
  deriving DecidableEq

/-- Reader state together with the messages pushed to the receive channel so far (oldest first). pkg/core/receive.go:47-68. -/
structure RecvState where
  pos : RecvPos
  out : List PMessage
  deriving DecidableEq

/-- A new connection, pkg/core/receive.go:47-50. -/
def RecvState.init : RecvState := ⟨.header [], []⟩

/-- receive.go:57-67: the body is complete; unmarshal, push or exit. -/
def recvComplete (out : List PMessage) (buf : Bytes) : RecvState :=
  match unmarshal PMessage buf with
  | some m => ⟨.header [], out ++ [m]⟩
  | none => ⟨.dead, out⟩

/-- One byte arrives. receive.go:48-53: four header bytes, then `BytesToInt` many body bytes
(`io.ReadFull` of an empty slice returns at once). -/
def recvByte (s : RecvState) (b : UInt8) : RecvState :=
  match s.pos with
  | .dead => s
  | .header got =>
    let got := got ++ [b]
    if got.length < 4 then ⟨.header got, s.out⟩
    else
      let length := (bytesToInt got).toNat
      if length = 0 then recvComplete s.out [] else ⟨.body length [], s.out⟩
  | .body length got =>
    let got := got ++ [b]
    if got.length < length then ⟨.body length got, s.out⟩ else recvComplete s.out got

/-- The bytes of one connection arrive. pkg/core/receive.go:48-68. -/
def recvBytes (s : RecvState) (bs : Bytes) : RecvState := bs.foldl recvByte s

/-- The peer closes the connection: `io.ReadFull` returns an error (io.EOF or io.ErrUnexpectedEOF) and
receive.go:53-56 calls `log.Fatalln`. -/
def recvEOF (s : RecvState) : RecvState := ⟨.dead, s.out⟩

end DyCAPS

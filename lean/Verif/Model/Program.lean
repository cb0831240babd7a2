import Verif.Model.MVBA
import Verif.Model.Proactivize

/-!
# Which queues are read, and what the program calls

The keys of all queues the protocol reads (`GetMessage` calls), and the calls made by `cmd/DyCAPs/main.go` and by the script `cmd/DyCAPs/test_multiCommittee.sh` that starts it.
-/

namespace DyCAPS

/-- `[]byte("...")` for a Go string with ASCII characters only. main.go:61-189, ProactivizeAndShareDist.go:135,145,565,573. -/
def asciiBytes (s : String) : Bytes := s.toList.map fun c => UInt8.ofNat c.toNat

/-! ## Queues -/

/-- The three message types of a reliable broadcast. RBC.go:73,111,165. -/
inductive RbcQueue where
  | propose
  | echo
  | ready
  deriving DecidableEq

/-- The `Type` field. RBC.go:73,111,165. -/
def RbcQueue.type : RbcQueue → String
  | .propose => "RBCPropose"
  | .echo => "RBCEcho"
  | .ready => "RBCReady"

/-- Everything messages are read for in one run: the protocol phase with round, broadcaster and stage. VSS.go:24; ShareReduce.go:75,178; ProactivizeAndShareDist.go:145,264,358,573,617,688;
RBC.go:73,111,165; pb.go:37,59; message_handler.go:36,69,102,129,185. -/
inductive QueueUse where
  | vssSend
  | prepare
  | shareReduce
  | reshare
  | recover
  | shareDist
  | success
  | commit (q : RbcQueue) (j : ℕ)
  | newCommit (q : RbcQueue) (j : ℕ)
  | value (r j stage : ℕ)
  | echo (r j stage : ℕ)
  | finish (r : ℕ)
  | done (r : ℕ)
  | halt (r : ℕ)
  | preVote (r : ℕ)
  | vote (r : ℕ)
  deriving DecidableEq

/-- The arguments `(messageType, ID)` of `GetMessage`, where `ID` is the identifier the phase was called with. The broadcast identifiers are `string(ID) + "_1," + j` and `string(ID) + "_2," + j`
with `j` in decimal (ProactivizeAndShareDist.go:135,145,565,573), those of the agreement end in the stage (spb.go:18-23,39-44). -/
def queueKey (ID : Bytes) : QueueUse → String × Bytes
  | .vssSend => ("VSSSend", ID)
  | .prepare => ("Prepare", ID)
  | .shareReduce => ("ShareReduce", ID)
  | .reshare => ("Reshare", ID)
  | .recover => ("Recover", ID)
  | .shareDist => ("ShareDist", ID)
  | .success => ("Success", ID)
  | .commit q j => (q.type, ID ++ asciiBytes "_1," ++ decimalBytes j)
  | .newCommit q j => (q.type, ID ++ asciiBytes "_2," ++ decimalBytes j)
  | .value r j stage => ("Value", idInstance ID r j ++ [UInt8.ofNat stage])
  | .echo r j stage => ("Echo", idInstance ID r j ++ [UInt8.ofNat stage])
  | .finish r => ("Finish", idRound ID r)
  | .done r => ("Done", idRound ID r)
  | .halt r => ("Halt", idRound ID r)
  | .preVote r => ("PreVote", idRound ID r)
  | .vote r => ("Vote", idRound ID r)

/-! ## The program -/

/-- The protocol functions a process calls, with the identifier. main.go:33-189. Opening files, connections, waiting and logging are not modelled. -/
inductive ProgCall where
  | genCoefficients
  | share (ID : Bytes)
  | vssShareReceive (ID : Bytes)
  | prepareSend (ID : Bytes)
  | prepareReceive (ID : Bytes)
  | shareReduceSend (ID : Bytes)
  | shareReduceReceive (ID : Bytes)
  | proactivize (ID : Bytes)
  deriving DecidableEq

/-- `main`, main.go:33-191: the calls made for the flags `op1` and `op2`, in order. A value of `op2` that is not one of the four roles makes the `switch` do nothing. -/
def mainCalls (op1 op2 : String) : List ProgCall :=
  if op1 = "1" then [.genCoefficients]
  else if op1 = "2" then
    match op2 with
    | "oldCommittee" => [.vssShareReceive (asciiBytes "vssshare"), .prepareSend (asciiBytes "shareReduce"), .shareReduceSend (asciiBytes "shareReduce")]
    | "newCommittee" => [.prepareReceive (asciiBytes "shareReduce"), .shareReduceReceive (asciiBytes "shareReduce"), .proactivize (asciiBytes "ProactivizeAndShareDist")]
    | "onlyOneCommittee" => [.vssShareReceive (asciiBytes "vssshare"), .prepareSend (asciiBytes "shareReduce"), .prepareReceive (asciiBytes "shareReduce"),
        .shareReduceSend (asciiBytes "shareReduce"), .shareReduceReceive (asciiBytes "shareReduce"), .proactivize (asciiBytes "ProactivizeAndShareDist")]
    | "client" => [.share (asciiBytes "vssshare")]
    | _ => []
  else []

/-- The identifier of the agreement a call runs: `MainProcess(p, ID, ..)`, ProactivizeAndShareDist.go:437. -/
def ProgCall.agreementId : ProgCall → Option Bytes
  | .proactivize ID => some ID
  | _ => none

/-- The flags `op1` and `op2` of the processes that the script starts for a committee size `n`, in order: the key generation, the client, `n` members of the one and `n` of the other committee.
test_multiCommittee.sh:14-32. -/
def scriptProcesses (n : ℕ) : List (String × String) :=
  [("1", "committee"), ("2", "client")] ++ List.replicate n ("2", "currentCommitee") ++ List.replicate n ("2", "newCommitee")

end DyCAPS

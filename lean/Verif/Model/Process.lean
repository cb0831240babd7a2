import Verif.Model.Program
import Verif.Model.VSS
import Verif.Model.ShareReduce
import Verif.Model.Proactivize

/-!
# The process of a member

`cmd/DyCAPs/main.go`: the calls of one role, made one after the other on the same `HonestParty`. What arrives from others is given by the constructors.
-/

namespace DyCAPS

section
variable {G1 G2 GT : Type} [AddCommGroup G1] [Module Fr G1] [AddCommGroup G2] [Module Fr G2] [AddCommGroup GT] [Module Fr GT]
variable [DecidableEq G1] [DecidableEq GT]

/-- `ProcRun codec sha pp vss red evs calls p p' sent`: a process makes the calls `calls`, starting with the party state `p`; all of them return and leave the state `p'`. `sent` are the ShareReduce payloads it has sent, one list for
each call of `ShareReduceSend`; `vss`, `red` and `evs` are what it has read in VSS, in ShareReduce and in the refresh. After the last call the process waits (`time.Sleep`, main.go:77,109,165) and does nothing to
the state. main.go:51-165. -/
inductive ProcRun (codec : PointCodec G1) (sha : Bytes → Bytes) (pp : Pairing Fr G1 G2 GT) (vss : List PMessage) (red : List (UInt32 × Bytes)) (evs : List PEvent) :
    List ProgCall → Party G1 G2 → Party G1 G2 → List (List Bytes) → Prop
  | nil {p} : ProcRun codec sha pp vss red evs [] p p []
  | vss {ID rest p p1 p' sent ok} (h : vssShareReceiveFrom codec pp p vss = some (.ok (p1, ok))) (hr : ProcRun codec sha pp vss red evs rest p1 p' sent) :
      ProcRun codec sha pp vss red evs (.vssShareReceive ID :: rest) p p' sent
  | prepareSend {ID rest p p' sent} (hr : ProcRun codec sha pp vss red evs rest p p' sent) : ProcRun codec sha pp vss red evs (.prepareSend ID :: rest) p p' sent
  | prepareReceive {ID rest p p1 p' sent} (prep : List Bytes) (h : prepareReceive codec sha p (fun _ => 0) prep = .ok (some p1)) (hr : ProcRun codec sha pp vss red evs rest p1 p' sent) :
      ProcRun codec sha pp vss red evs (.prepareReceive ID :: rest) p p' sent
  | shareReduceSend {ID rest p p' out sent} (h : shareReduceSend codec p = .ok out) (hr : ProcRun codec sha pp vss red evs rest p p' sent) :
      ProcRun codec sha pp vss red evs (.shareReduceSend ID :: rest) p p' (out :: sent)
  | shareReduceReceive {ID rest p p1 p' sent} (h : shareReduceReceive codec pp p SRState.init red = .ok (some p1)) (hr : ProcRun codec sha pp vss red evs rest p1 p' sent) :
      ProcRun codec sha pp vss red evs (.shareReduceReceive ID :: rest) p p' sent
  | proactivize {ID rest p p1 p' sent outs st} (tb : Tbls) (c : DealerCoins) (h : PRun codec pp tb p (PState.init p c) evs outs p1 st) (hf : st.finished = true)
      (hr : ProcRun codec sha pp vss red evs rest p1 p' sent) : ProcRun codec sha pp vss red evs (.proactivize ID :: rest) p p' sent

end

end DyCAPS

import Verif.Spec.Path

/-! Vocabulary for C51: peers that do not run the code. -/

namespace DyCAPS

/-- The bytes written to connection `a` otherwise than by the writer goroutine, in order. -/
def rawBytes (evs : List PathEvent) (a : ℕ) : Bytes :=
  evs.flatMap fun
    | .raw b bs => if b = a then bs else []
    | _ => []

/-- The number of bytes that the reader goroutine of connection `a` has read. -/
def bytesRead (evs : List PathEvent) (a : ℕ) : ℕ :=
  evs.countP fun
    | .byte b => decide (b = a)
    | _ => false

/-- The number of messages that it has pushed. -/
def msgsPushed (evs : List PathEvent) (a : ℕ) : ℕ :=
  evs.countP fun
    | .push b => decide (b = a)
    | _ => false

/-- The number that the bytes stand for, the most significant first. -/
def headerLen (h : Bytes) : ℕ := h.foldl (fun n b => 256 * n + b.toNat) 0

/-- `fr` is a complete frame with the given body: four bytes, and then as many as these say. -/
def IsFrame (body fr : Bytes) : Prop := ∃ h, h.length = 4 ∧ body.length = headerLen h ∧ fr = h ++ body

/-- The bytes begin with complete frames that decode as messages, and then a complete frame that does not. -/
inductive Breaks : Bytes → Prop
  | bad {body fr rest : Bytes} : IsFrame body fr → unmarshal PMessage body = none → Breaks (fr ++ rest)
  | good {body fr rest : Bytes} {m : PMessage} : IsFrame body fr → unmarshal PMessage body = some m → Breaks rest → Breaks (fr ++ rest)

end DyCAPS

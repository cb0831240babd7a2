import Verif.Lemmas.Path
import Verif.Spec.RawPeer

/-! Helper lemmas about connections of peers that do not run the code. -/

namespace DyCAPS

/-- The events that change what connection `a` carries. -/
def PathEvent.onWire (a : ℕ) : PathEvent → Bool
  | .write b | .raw b _ | .byte b | .push b => decide (b = a)
  | _ => false

theorem pathStep_other {N a : ℕ} {s s' : PathState} {e : PathEvent} (hs : pathStep N s e = some s') (he : e.onWire a = false) : s'.wire a = s.wire a ∧ s'.rd a = s.rd a := by
  cases e with
  | send b m =>
    simp only [pathStep] at hs
    split at hs <;> cases hs
    exact ⟨rfl, rfl⟩
  | write b =>
    have hb : a ≠ b := fun h => by simp [PathEvent.onWire, h] at he
    simp only [pathStep] at hs
    split at hs <;> cases hs
    exact ⟨Function.update_of_ne hb _ _, rfl⟩
  | raw b bs =>
    have hb : a ≠ b := fun h => by simp [PathEvent.onWire, h] at he
    simp only [pathStep, Option.some.injEq] at hs
    subst hs
    exact ⟨Function.update_of_ne hb _ _, rfl⟩
  | byte b =>
    have hb : a ≠ b := fun h => by simp [PathEvent.onWire, h] at he
    simp only [pathStep] at hs
    split at hs
    · cases hs
    split at hs <;> cases hs
    exact ⟨Function.update_of_ne hb _ _, Function.update_of_ne hb _ _⟩
  | push b =>
    have hb : a ≠ b := fun h => by simp [PathEvent.onWire, h] at he
    simp only [pathStep] at hs
    split at hs
    · cases hs
    split at hs
    · cases hs
    rw [Option.map_eq_some_iff] at hs
    obtain ⟨d, -, rfl⟩ := hs
    exact ⟨rfl, Function.update_of_ne hb _ _⟩
  | d e =>
    cases e
    case arrive m => cases hs
    all_goals
      simp only [pathStep] at hs
      split at hs
      · cases hs
      · rw [Option.map_eq_some_iff] at hs
        obtain ⟨d, -, rfl⟩ := hs
        exact ⟨rfl, rfl⟩

theorem rawBytes_snoc (evs : List PathEvent) (e : PathEvent) (a : ℕ) : rawBytes (evs ++ [e]) a = rawBytes evs a ++ rawBytes [e] a := by
  simp only [rawBytes, List.flatMap_append]

theorem bytesRead_snoc (evs : List PathEvent) (e : PathEvent) (a : ℕ) : bytesRead (evs ++ [e]) a = bytesRead evs a + bytesRead [e] a := by
  simp only [bytesRead, List.countP_append]

theorem msgsPushed_snoc (evs : List PathEvent) (e : PathEvent) (a : ℕ) : msgsPushed (evs ++ [e]) a = msgsPushed evs a + msgsPushed [e] a := by
  simp only [msgsPushed, List.countP_append]

theorem quiet_event {e : PathEvent} {a : ℕ} (h : e.onWire a = false) : rawBytes [e] a = [] ∧ bytesRead [e] a = 0 ∧ msgsPushed [e] a = 0 := by
  cases e <;> simp_all [PathEvent.onWire, rawBytes, bytesRead, msgsPushed]

/-- What a connection carries and what its reader has made of it. -/
theorem raw_inv {N a : ℕ} {evs : List PathEvent} {s : PathState} (h : PathRun N .init evs s) (hw : PathEvent.write a ∉ evs) :
    bytesRead evs a ≤ (rawBytes evs a).length ∧ s.wire a = (rawBytes evs a).drop (bytesRead evs a) ∧
      ∃ past, past.length = msgsPushed evs a ∧ recvBytes .init ((rawBytes evs a).take (bytesRead evs a)) = ⟨(s.rd a).pos, past ++ (s.rd a).out⟩ := by
  induction h with
  | nil => exact ⟨Nat.le_refl _, rfl, [], rfl, rfl⟩
  | @snoc evs s e s' h hs ih =>
    obtain ⟨i1, i2, past, i3, i4⟩ := ih fun hm => hw (List.mem_append_left _ hm)
    rw [rawBytes_snoc, bytesRead_snoc, msgsPushed_snoc]
    rcases Bool.eq_false_or_eq_true (e.onWire a) with he | he
    · cases e with
      | send b m => cases he
      | d e => cases he
      | write b =>
        obtain rfl : b = a := of_decide_eq_true he
        exact absurd (List.mem_append_right _ (List.mem_singleton.2 rfl)) hw
      | raw b bs =>
        obtain rfl : b = a := of_decide_eq_true he
        simp only [pathStep, Option.some.injEq] at hs
        subst hs
        have e1 : rawBytes [.raw b bs] b = bs := by simp [rawBytes]
        have e2 : bytesRead [.raw b bs] b = 0 := rfl
        have e3 : msgsPushed [.raw b bs] b = 0 := rfl
        rw [e1, e2, e3, Nat.add_zero, Nat.add_zero]
        refine ⟨by rw [List.length_append]; omega, ?_, past, i3, ?_⟩
        · simp only [Function.update_self]
          rw [i2, List.drop_append_of_le_length i1]
        · rw [List.take_append_of_le_length i1, i4]
      | byte b =>
        obtain rfl : b = a := of_decide_eq_true he
        have e1 : rawBytes [.byte b] b = [] := rfl
        have e2 : bytesRead [.byte b] b = 1 := by simp [bytesRead]
        have e3 : msgsPushed [.byte b] b = 0 := rfl
        rw [e1, e2, e3, List.append_nil, Nat.add_zero]
        simp only [pathStep] at hs
        split at hs
        · cases hs
        · split at hs
          · cases hs
          · next x rest hx =>
            cases hs
            simp only [Function.update_self]
            rw [i2] at hx
            have hlt : bytesRead evs b < (rawBytes evs b).length := by
              by_contra hc
              rw [List.drop_of_length_le (not_lt.1 hc)] at hx
              cases hx
            have hd := List.drop_eq_getElem_cons hlt
            rw [hx, List.cons.injEq] at hd
            refine ⟨hlt, hd.2, past, i3, ?_⟩
            rw [List.take_add_one, List.getElem?_eq_getElem hlt, ← hd.1, recvBytes_append, i4]
            show recvByte ⟨(s.rd b).pos, past ++ (s.rd b).out⟩ x = _
            rw [recvByte_out]
      | push b =>
        obtain rfl : b = a := of_decide_eq_true he
        have e1 : rawBytes [.push b] b = [] := rfl
        have e2 : bytesRead [.push b] b = 0 := rfl
        have e3 : msgsPushed [.push b] b = 1 := by simp [msgsPushed]
        rw [e1, e2, e3, List.append_nil, Nat.add_zero]
        simp only [pathStep] at hs
        split at hs
        · cases hs
        split at hs
        · cases hs
        · next m rest hm =>
          rw [Option.map_eq_some_iff] at hs
          obtain ⟨d, -, rfl⟩ := hs
          simp only [Function.update_self]
          refine ⟨i1, i2, past ++ [m], by rw [List.length_append, i3]; rfl, ?_⟩
          rw [i4, hm, List.append_assoc]
          rfl
    · obtain ⟨q1, q2, q3⟩ := quiet_event he
      obtain ⟨w1, w2⟩ := pathStep_other hs he
      rw [q1, q2, q3, List.append_nil, Nat.add_zero, Nat.add_zero, w1, w2]
      exact ⟨i1, i2, past, i3, i4⟩

/-- The process has ended when one of its readers has. -/
theorem ended_by {N : ℕ} {evs : List PathEvent} {s : PathState} (h : PathRun N .init evs s) (he : s.ended = true) : ∃ a, (s.rd a).pos = .dead := by
  induction h with
  | nil => cases he
  | @snoc evs s e s' h hs ih =>
    cases e with
    | byte b =>
      simp only [pathStep] at hs
      split at hs
      · cases hs
      split at hs <;> cases hs
      exact ⟨b, by simpa using he⟩
    | push b =>
      simp only [pathStep] at hs
      split at hs
      · cases hs
      split at hs
      · cases hs
      rw [Option.map_eq_some_iff] at hs
      obtain ⟨d, -, rfl⟩ := hs
      next hn _ _ _ _ => exact absurd he hn
    | send b m =>
      simp only [pathStep] at hs
      split at hs <;> cases hs
      exact ih he
    | write b =>
      simp only [pathStep] at hs
      split at hs <;> cases hs
      exact ih he
    | raw b bs => cases hs; exact ih he
    | d e =>
      cases e
      case arrive m => cases hs
      all_goals
        simp only [pathStep] at hs
        split at hs
        · cases hs
        · next hn =>
          rw [Option.map_eq_some_iff] at hs
          obtain ⟨d, -, rfl⟩ := hs
          exact absurd he hn

theorem recvBytes_dead (bs : Bytes) (out : List PMessage) : recvBytes ⟨.dead, out⟩ bs = ⟨.dead, out⟩ := by
  induction bs with
  | nil => rfl
  | cons b bs ih => exact ih

theorem headerLen_eq (b0 b1 b2 b3 : UInt8) : (bytesToInt [b0, b1, b2, b3]).toNat = headerLen [b0, b1, b2, b3] := by
  have h0 := b0.toNat_lt
  have h1 := b1.toNat_lt
  have h2 := b2.toNat_lt
  have h3 := b3.toNat_lt
  have e : bytesToUint32 [b0, b1, b2, b3] = UInt32.ofNat (b0.toNat * 2 ^ 24 + b1.toNat * 2 ^ 16 + b2.toNat * 2 ^ 8 + b3.toNat) := by rw [bytesToUint32]
  rw [bytesToInt, Int.toNat_natCast, e, UInt32.toNat_ofNat', headerLen, List.foldl_cons, List.foldl_cons, List.foldl_cons, List.foldl_cons, List.foldl_nil]
  omega

theorem recv_isFrame (out : List PMessage) {body fr : Bytes} (h : IsFrame body fr) : recvBytes ⟨.header [], out⟩ fr = recvComplete out body := by
  obtain ⟨hd, h1, h2, rfl⟩ := h
  match hd, h1 with
  | [b0, b1, b2, b3], _ =>
    rw [recvBytes_append, recv_header, headerLen_eq]
    by_cases h0 : headerLen [b0, b1, b2, b3] = 0
    · rw [if_pos h0, show body = [] from List.length_eq_zero_iff.1 (h2.trans h0)]
      rfl
    · rw [if_neg h0, recv_body_full out _ _ h2 (by omega)]

theorem Breaks.dead {bs : Bytes} (h : Breaks bs) : ∀ out, (recvBytes ⟨.header [], out⟩ bs).pos = .dead := by
  induction h with
  | bad hf hu =>
    intro out
    rw [recvBytes_append, recv_isFrame out hf, recvComplete, hu]
    dsimp only
    rw [recvBytes_dead]
  | good hf hu _ ih =>
    intro out
    rw [recvBytes_append, recv_isFrame out hf, recvComplete, hu]
    exact ih _

theorem Breaks.of_dead : ∀ (n : ℕ) (bs : Bytes), bs.length ≤ n → ∀ out, (recvBytes ⟨.header [], out⟩ bs).pos = .dead → Breaks bs := by
  intro n
  induction n with
  | zero =>
    intro bs hn out h
    rw [List.length_eq_zero_iff.1 (Nat.le_zero.1 hn)] at h
    cases h
  | succ n ih =>
    intro bs hn out h
    match bs, hn, h with
    | [], _, h => cases h
    | [_], _, h => cases h
    | [_, _], _, h => cases h
    | [_, _, _], _, h => cases h
    | b0 :: b1 :: b2 :: b3 :: tl, hn, h =>
      by_cases hl : tl.length < headerLen [b0, b1, b2, b3]
      · exfalso
        rw [show b0 :: b1 :: b2 :: b3 :: tl = [b0, b1, b2, b3] ++ tl from rfl, recvBytes_append, recv_header, headerLen_eq, if_neg (by omega),
          recv_body_partial _ _ _ _ (by simpa using hl)] at h
        cases h
      · have hf : IsFrame (tl.take (headerLen [b0, b1, b2, b3])) ([b0, b1, b2, b3] ++ tl.take (headerLen [b0, b1, b2, b3])) :=
          ⟨_, rfl, by rw [List.length_take]; omega, rfl⟩
        have hs : b0 :: b1 :: b2 :: b3 :: tl = ([b0, b1, b2, b3] ++ tl.take (headerLen [b0, b1, b2, b3])) ++ tl.drop (headerLen [b0, b1, b2, b3]) := by
          rw [List.append_assoc, List.take_append_drop]
          rfl
        rw [hs] at h ⊢
        cases hu : unmarshal PMessage (tl.take (headerLen [b0, b1, b2, b3])) with
        | none => exact .bad hf hu
        | some m =>
          rw [recvBytes_append, recv_isFrame out hf, recvComplete, hu] at h
          refine .good hf hu (ih _ ?_ _ h)
          simp only [List.length_cons] at hn
          rw [List.length_drop]
          omega

end DyCAPS

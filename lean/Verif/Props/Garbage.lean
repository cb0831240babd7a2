import Verif.Lemmas.Held
import Verif.Lemmas.RawPeer
import Verif.Props.Framing

/-! C51 for a whole process. -/

namespace DyCAPS

theorem bytes_run {N a : ℕ} (bs : Bytes) : ∀ s : PathState, s.ended = false → s.wire a = bs → (∀ k < bs.length, (recvBytes (s.rd a) (bs.take k)).out = [] ∧ (recvBytes (s.rd a) (bs.take k)).pos ≠ .dead) →
    ∃ s', PathRun N s (List.replicate bs.length (.byte a)) s' ∧ s'.d = s.d ∧ s'.ended = (if bs = [] then false else decide ((recvBytes (s.rd a) bs).pos = .dead)) := by
  induction bs with
  | nil => exact fun s h1 _ _ => ⟨s, .nil, rfl, h1⟩
  | cons b bs ih =>
    intro s h1 h2 h3
    have h0 := (h3 0 (by simp)).1
    simp only [List.take_zero, recvBytes, List.foldl_nil] at h0
    let s1 : PathState := { s with wire := Function.update s.wire a bs, rd := Function.update s.rd a (recvByte (s.rd a) b), ended := decide ((recvByte (s.rd a) b).pos = .dead) }
    have e1 : pathStep N s (.byte a) = some s1 := by
      simp only [pathStep, h1, h0, h2]
      rfl
    have hrd : s1.rd a = recvByte (s.rd a) b := by simp only [s1, Function.update_self]
    rcases eq_or_ne bs [] with rfl | hne
    · exact ⟨s1, PathRun.nil.snoc e1, rfl, by rw [if_neg (by simp)]; rfl⟩
    · have hl : 0 < bs.length := List.length_pos_iff.2 hne
      have hd : s1.ended = false := decide_eq_false (h3 1 (by simp only [List.length_cons]; omega)).2
      obtain ⟨s', k1, k2, k3⟩ := ih s1 hd (by simp only [s1, Function.update_self]) fun k hk => by
        have := h3 (k + 1) (by simp only [List.length_cons]; omega)
        rw [hrd]
        exact this
      refine ⟨s', ?_, k2, ?_⟩
      · exact (PathRun.nil.snoc e1).trans k1
      · rw [k3, if_neg hne, hrd, if_neg (by simp)]
        rfl

/-- An ended process stays as it is. -/
theorem ended_stays {N : ℕ} {s s' : PathState} {evs : List PathEvent} (h : PathRun N s evs s') (he : s.ended = true) : s'.ended = true ∧ s'.d = s.d := by
  induction h with
  | nil => exact ⟨he, rfl⟩
  | @snoc evs s1 e s2 h hs ih =>
    obtain ⟨i1, i2⟩ := ih
    cases e with
    | send a m =>
      simp only [pathStep] at hs
      split at hs
      · cases hs; exact ⟨i1, i2⟩
      · cases hs
    | write a =>
      simp only [pathStep] at hs
      split at hs
      · cases hs
      · cases hs; exact ⟨i1, i2⟩
    | raw a bs => cases hs; exact ⟨i1, i2⟩
    | byte a => simp [pathStep, i1] at hs
    | push a => simp [pathStep, i1] at hs
    | d e => cases e <;> simp [pathStep, i1] at hs

/-- **C51 is false for a whole process too.** Whatever has happened before, a peer on a connection that has not been used so far ends the process with the five bytes 00 00 00 01 00; nobody in the process gets any message
after that, also not those of other peers that are in its queues already. -/
theorem C51_ends_process {N : ℕ} {evs : List PathEvent} {s : PathState} (h : PathRun N .init evs s) (he : s.ended = false) {a : ℕ} (ha : ∀ e ∈ evs, e.conn ≠ some a) :
    ∃ s', PathRun N s (.raw a [0, 0, 0, 1, 0] :: List.replicate 5 (.byte a)) s' ∧ s'.ended = true ∧
      ∀ evs' s'', PathRun N s' evs' s'' → s''.ended = true ∧ ∀ t id, readBy s'' t id = readBy s t id := by
  obtain ⟨-, h2, h3⟩ := (PathInv.run h).unused a ha
  let s1 : PathState := { s with wire := Function.update s.wire a [0, 0, 0, 1, 0] }
  have e1 : pathStep N s (.raw a [0, 0, 0, 1, 0]) = some s1 := by simp only [pathStep, h2]; rfl
  obtain ⟨s', k1, k2, k3⟩ := bytes_run (N := N) (a := a) [0, 0, 0, 1, 0] s1 he (by simp only [s1, Function.update_self]) (by
    show ∀ k < 5, (recvBytes (s.rd a) _).out = [] ∧ (recvBytes (s.rd a) _).pos ≠ .dead
    rw [h3]
    decide +kernel)
  have hd : s'.ended = true := by
    rw [k3, if_neg (by simp)]
    show decide ((recvBytes (s.rd a) _).pos = .dead) = true
    rw [h3]
    decide +kernel
  refine ⟨s', (PathRun.nil.snoc e1).trans k1, hd, fun evs' s'' h' => ?_⟩
  obtain ⟨j1, j2⟩ := ended_stays h' hd
  exact ⟨j1, fun t id => by simp only [readBy, j2, k2]; rfl⟩

/-- **C51, the part that holds.** While all peers keep their connections and write nothing but frames of messages below 4 GB, the process runs. -/
theorem C51_plain_partial {N : ℕ} {evs : List PathEvent} {s : PathState} (h : PathRun N .init evs s) (hp : ∀ a, PlainPeer evs a) : s.ended = false := plain_alive h hp

/-- A message of the peer on connection 0 waits; the peer on connection 1 ends the process; the message is never read. -/
example : ∃ evs s, PathRun 4 .init evs s ∧ handed evs 0 = [⟨"Vote", [3], 0, [1]⟩] ∧ PlainPeer evs 0 ∧ ∀ evs' s', PathRun 4 s evs' s' → readBy s' "Vote" [3] = [] := by
  have hrun : PathRun 4 .init [.send 0 ⟨"Vote", [3], 0, [1]⟩, .write 0] _ := (PathRun.nil.snoc rfl).snoc rfl
  have hp : ∀ a, PlainPeer [.send 0 ⟨"Vote", [3], 0, [1]⟩, .write 0] a := fun a => ⟨by simp, fun m hm => by
    simp only [handed, List.filterMap_cons, List.filterMap_nil] at hm
    split at hm
    · cases hm
    · next heq =>
      split at heq
      · cases heq; rw [List.mem_singleton] at hm; subst hm; decide +kernel
      · cases heq⟩
  obtain ⟨s', h1, -, h3⟩ := C51_ends_process hrun (C51_plain_partial hrun hp) (a := 1) (by simp [PathEvent.conn])
  refine ⟨_, s', hrun.trans h1, rfl, ⟨by simp, fun m hm => (hp 0).2 m hm⟩, fun evs' s'' h' => ?_⟩
  rw [(h3 evs' s'' h').2]
  rfl

/-- **C51, the part that holds for any bytes.** A peer that writes whatever it likes: its bytes are read in the order written, and the reader goroutine is where the frame reader (C03) is after the bytes it has read; what it
has not pushed yet are the last of the messages in them. -/
theorem C51_in_order_partial {N a : ℕ} {evs : List PathEvent} {s : PathState} (h : PathRun N .init evs s) (hw : PathEvent.write a ∉ evs) :
    s.wire a = (rawBytes evs a).drop (bytesRead evs a) ∧ (s.rd a).pos = (recvBytes .init ((rawBytes evs a).take (bytesRead evs a))).pos ∧
      (s.rd a).out = (recvBytes .init ((rawBytes evs a).take (bytesRead evs a))).out.drop (msgsPushed evs a) := by
  obtain ⟨-, h2, past, h3, h4⟩ := raw_inv h hw
  refine ⟨h2, by rw [h4], ?_⟩
  rw [h4, ← h3]
  exact (List.drop_left' rfl).symm

/-- **C51, which bytes end the reader.** Exactly those that begin with complete frames that decode and then a complete frame that does not. -/
theorem C51_which_bytes_partial (bs : Bytes) : (recvBytes .init bs).pos = .dead ↔ Breaks bs := ⟨Breaks.of_dead _ bs le_rfl [], fun h => h.dead []⟩

/-- An empty message, then a frame of one byte that does not decode, then anything. -/
example (rest : Bytes) : (recvBytes .init ([0, 0, 0, 0] ++ ([0, 0, 0, 1, 0] ++ rest))).pos = .dead :=
  (C51_which_bytes_partial _).2 (.good (body := []) (m := ⟨"", [], 0, []⟩) ⟨[0, 0, 0, 0], rfl, rfl, rfl⟩ (by decide +kernel)
    (.bad (body := [0]) ⟨[0, 0, 0, 1], rfl, rfl, rfl⟩ (by decide +kernel)))

/-- **C51, who can end a process.** While no connection is closed, and every peer either runs the code or writes only its own bytes: an ended process has a peer of the second kind, and what this peer wrote begins
with frames that decode and then one complete frame that does not. (A peer that does both on one connection is not covered, and closing a connection ends the process too: `C51_peer_can_stop_receiver`.) -/
theorem C51_only_garbage_partial {N : ℕ} {evs : List PathEvent} {s : PathState} (h : PathRun N .init evs s) (hp : ∀ a, PlainPeer evs a ∨ PathEvent.write a ∉ evs) (he : s.ended = true) :
    ∃ a, ¬ PlainPeer evs a ∧ Breaks (rawBytes evs a) := by
  obtain ⟨a, ha⟩ := ended_by h he
  have hn : ¬ PlainPeer evs a := fun hpl => by
    obtain ⟨arr, _, hc, _⟩ := (PathInv.run h).conns
    exact ((hc a hpl).prefix hpl.2).2 ha
  refine ⟨a, hn, (C51_which_bytes_partial _).1 ?_⟩
  have h2 := (C51_in_order_partial h ((hp a).resolve_left hn)).2.1
  rw [ha] at h2
  rw [← List.take_append_drop (bytesRead evs a) (rawBytes evs a), recvBytes_append]
  rw [show recvBytes .init ((rawBytes evs a).take (bytesRead evs a)) = ⟨.dead, (recvBytes .init ((rawBytes evs a).take (bytesRead evs a))).out⟩ by rw [h2], recvBytes_dead]

/-- A peer writes a length in two parts, another peer's message comes in between; the reader has read three of the five bytes and waits in the header. -/
example : ∃ s, PathRun 4 .init [.raw 1 [0, 0], .send 0 ⟨"Vote", [3], 0, [1]⟩, .raw 1 [0, 1, 0], .write 0, .byte 1, .byte 1, .byte 1] s ∧ s.wire 1 = [1, 0] ∧ (s.rd 1).pos = .header [0, 0, 0] ∧ s.ended = false := by
  have h : PathRun 4 .init [.raw 1 [0, 0], .send 0 ⟨"Vote", [3], 0, [1]⟩, .raw 1 [0, 1, 0], .write 0, .byte 1, .byte 1, .byte 1] _ :=
    ((((((PathRun.nil.snoc rfl).snoc rfl).snoc rfl).snoc rfl).snoc rfl).snoc rfl).snoc rfl
  obtain ⟨h1, h2, -⟩ := C51_in_order_partial h (a := 1) (by simp)
  exact ⟨_, h, h1, h2, rfl⟩

end DyCAPS

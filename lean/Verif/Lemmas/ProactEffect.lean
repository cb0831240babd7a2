import Verif.Lemmas.ProactCount

/-! The exact effect of every step of Proactivize and ShareDist, without the case distinctions of the program text. -/

set_option linter.unusedSectionVars false

namespace DyCAPS

section
variable {G1 G2 GT : Type} [AddCommGroup G1] [Module Fr G1] [AddCommGroup G2] [Module Fr G2] [AddCommGroup GT] [Module Fr GT]
variable [DecidableEq G1] [DecidableEq GT]

/-- What recording a point does to `flgRec` and `Q`. -/
def PointEffect (F : ℕ) (st : PState G1) (k : ℕ) (m : RecoverMsg G1) (fr : ℕ → Bool) (Q : ℕ → List Fr) : Prop :=
  (¬ (st.flgRec k = false ∧ F + 1 ≤ (st.SRec k).length + 1) ∧ fr = st.flgRec ∧ Q = st.Q) ∨
  (st.flgRec k = false ∧ F + 1 ≤ (st.SRec k).length + 1 ∧ fr = upd st.flgRec k true ∧ ∃ poly, Q = upd st.Q k poly ∧
    lagrangeInterpolate F (((st.SRec k ++ [(m.x, m.v)]).take (F + 1)).map fun q => ((q.1 : ℕ) : Fr))
        (((st.SRec k ++ [(m.x, m.v)]).take (F + 1)).map (·.2)) = .ok poly)

/-- A Recover message that handler `k` accepts. -/
def Accepts (pp : Pairing Fr G1 G2 GT) (tb : Tbls) (p : Party G1 G2) (st : PState G1) (k : ℕ) (m : RecoverMsg G1) : Prop :=
  checkProofSingle pp p.kzg (st.CQ k (p.pid + 1)) m.w ((m.x : ℕ) : Fr) m.v = .ok true ∧ tb.verifyPartial (decimalBytes k) m.sigShare = true

/-- The state after an accepted message. -/
def afterAccept (st : PState G1) (k : ℕ) (m : RecoverMsg G1) (fr : ℕ → Bool) (Q : ℕ → List Fr) (cb : ℕ → Bool) (mi : List (ℕ × Bytes)) (ms mr : Bool) : PState G1 :=
  { st with
    SRec := upd st.SRec k (st.SRec k ++ [(m.x, m.v)])
    SSig := upd st.SSig k (st.SSig k ++ [m.sigShare])
    flgRec := fr, Q := Q, combined := cb, mvbaIn := mi, mvbaSent := ms, mvbaRunning := mr
    held := upd st.held k none
    exited := upd st.exited k (st.exited k || ms) }

/-- The signature combined from the shares for `k`. -/
def combinedSig (tb : Tbls) (N F k : ℕ) (sigs : List Bytes) : Bytes :=
  (tb.recover (decimalBytes k) (sigs ++ List.replicate (N + 1 - sigs.length) []) (2 * F) N).getD []

/-- How a Reshare message comes to be handled: a free receiver takes it and goes on at once, or a receiver that was waiting goes on. -/
inductive VoteTake (N : ℕ) (st : PState G1) : PEvent → ℕ → Bytes → ℕ → List (ℕ × Bytes) → (ℕ → Bool) → Prop
  | now {s d} (h0 : st.voters ≠ 0) (h1 : (s + 1).toNat ≤ N) : VoteTake N st (.reshare s d) (s + 1).toNat d (st.voters - 1) st.voteWait st.voteToken
  | later {j d} (h0 : (j, d) ∈ st.voteWait) (h1 : st.voteToken j = true) :
      VoteTake N st (.vote j d) j d st.voters (st.voteWait.erase (j, d)) (upd st.voteToken j false)

/-- How a ShareDist message comes to be handled. -/
inductive DistTake (N : ℕ) (st : PState G1) : PEvent → ℕ → Bytes → ℕ → List (ℕ × Bytes) → Prop
  | now {s d} (h0 : st.dists ≠ 0) (h1 : (s + 1).toNat ≤ N) : DistTake N st (.shareDist s d) (s + 1).toNat d (st.dists - 1) st.distWait
  | later {j d} (h0 : (j, d) ∈ st.distWait) : DistTake N st (.dist j d) j d st.dists (st.distWait.erase (j, d))

inductive PEffect (codec : PointCodec G1) (pp : Pairing Fr G1 G2 GT) (tb : Tbls) (p : Party G1 G2) (st : PState G1) :
    PEvent → Party G1 G2 → PState G1 → List POut → Prop
  | commit {j d row ok} (h1 : 1 ≤ j) (h2 : j ≤ p.N) (h3 : st.comDone j = false)
      (hv : verifyCommit codec pp p (st.CQ j) (unmarshalD (⟨[]⟩ : PCommit) d) = .ok (row, ok)) :
      PEffect codec pp tb p st (.commit j (some d)) p { st with comDone := upd st.comDone j true, CQ := upd st.CQ j row, flgCom := upd st.flgCom j ok, voteToken := upd st.voteToken j ok } []
  | reshare {ev j d out n W T} (h1 : VoteTake p.N st ev j d n W T) (h2 : st.flgCom j = true)
      (hv : vote codec pp tb p (st.CQ j) j (unmarshalD (⟨[], []⟩ : PReshare) d) = .ok out) :
      PEffect codec pp tb p st ev p { st with voters := n, voteWait := W, voteToken := T } out
  | resharePark {s d} (h0 : st.voters ≠ 0) (h1 : (s + 1).toNat ≤ p.N) (h2 : st.flgCom (s + 1).toNat = false) :
      PEffect codec pp tb p st (.reshare s d) p { st with voters := st.voters - 1, voteWait := st.voteWait ++ [((s + 1).toNat, d)] } []
  | take {s d m} (h1 : st.slot = none) (hv : decodeRecover codec p s d = .ok m) :
      PEffect codec pp tb p st (.takeRecover s d) p { st with slot := some m } []
  | pass {m} (h : st.slot = some m) (h1 : 1 ≤ m.k) (h2 : m.k ≤ p.N) (h3 : st.flgCom m.k = true) (h4 : st.exited m.k = false) (h5 : st.held m.k = none) :
      PEffect codec pp tb p st .passRecover p { st with slot := none, held := upd st.held m.k (some m) } []
  | handleBad {k m} (h1 : st.mvbaRunning = false) (h2 : st.held k = some m) (h3 : ¬ Accepts pp tb p st k m) :
      PEffect codec pp tb p st (.handleRecover k) p (endIteration st k) []
  | handleOk {k m fr Q} (h1 : st.mvbaRunning = false) (h2 : st.held k = some m) (h3 : Accepts pp tb p st k m) (hQ : PointEffect p.F st k m fr Q)
      (h4 : ¬ (st.combined k = false ∧ 2 * p.F + 1 ≤ (st.SSig k).length + 1)) :
      PEffect codec pp tb p st (.handleRecover k) p (afterAccept st k m fr Q st.combined st.mvbaIn st.mvbaSent st.mvbaRunning) []
  | handleComb {k m fr Q} (h1 : st.mvbaRunning = false) (h2 : st.held k = some m) (h3 : Accepts pp tb p st k m) (hQ : PointEffect p.F st k m fr Q)
      (h4 : st.combined k = false) (h5 : 2 * p.F + 1 ≤ (st.SSig k).length + 1) (h6 : ¬ (st.mvbaSent = false ∧ p.F + 1 ≤ st.mvbaIn.length + 1)) :
      PEffect codec pp tb p st (.handleRecover k) p (afterAccept st k m fr Q (upd st.combined k true)
        (st.mvbaIn ++ [(k, combinedSig tb p.N p.F k (st.SSig k ++ [m.sigShare]))]) st.mvbaSent st.mvbaRunning) []
  | handleCall {k m fr Q} (h1 : st.mvbaRunning = false) (h2 : st.held k = some m) (h3 : Accepts pp tb p st k m) (hQ : PointEffect p.F st k m fr Q)
      (h4 : st.combined k = false) (h5 : 2 * p.F + 1 ≤ (st.SSig k).length + 1) (h6 : st.mvbaSent = false) (h7 : p.F + 1 ≤ st.mvbaIn.length + 1) :
      PEffect codec pp tb p st (.handleRecover k) p (afterAccept st k m fr Q (upd st.combined k true)
        (st.mvbaIn ++ [(k, combinedSig tb p.N p.F k (st.SSig k ++ [m.sigShare]))]) true true)
        [.mvba ⟨(st.mvbaIn ++ [(k, combinedSig tb p.N p.F k (st.SSig k ++ [m.sigShare]))]).map (·.2),
          (st.mvbaIn ++ [(k, combinedSig tb p.N p.F k (st.SSig k ++ [m.sigShare]))]).map fun q => UInt32.ofNat q.1⟩]
  | mvba {v} (h1 : st.mvbaRunning = true) :
      PEffect codec pp tb p st (.mvba v) p { st with
        mvbaRunning := false
        refresh := .looping ((unmarshalD (⟨[], []⟩ : PMVBAIN) v).j.map (·.toNat)) (List.replicate (p.F + 1) 0) (fun _ => 0) } []
  | refreshPark {j rest Qs Cs} (h1 : st.refresh = .looping (j :: rest) Qs Cs) (h2 : j ≤ p.N) (h3 : st.flgCom j = false) (h4 : st.refreshWait = false) :
      PEffect codec pp tb p st .refresh p { st with refreshWait := true } []
  | refreshCom {j rest Qs Cs} (h1 : st.refresh = .looping (j :: rest) Qs Cs) (h2 : j ≤ p.N) (h3 : st.flgCom j = true) (h4 : st.refreshWait = false) :
      PEffect codec pp tb p st .refresh p { st with refresh := .looping rest (addPoly p.F Qs (st.Q j)) (fun i => Cs i + st.CQ j i) } []
  | refreshRec {j rest Qs Cs c} (h1 : st.refresh = .looping (j :: rest) Qs Cs) (h2 : j ≤ p.N) (h3 : st.refreshWait = true) (h4 : st.flgRec j = true)
      (h5 : commitToPoly p.kzg (st.Q j) = .ok c) :
      PEffect codec pp tb p st .refresh p { st with
        CQ := upd st.CQ j (upd (st.CQ j) (p.pid + 1) c)
        refreshWait := false
        refresh := .looping rest (addPoly p.F Qs (st.Q j)) (fun i => Cs i + upd st.CQ j (upd (st.CQ j) (p.pid + 1) c) j i) } []
  | refreshEnd {Qs Cs} (h1 : st.refresh = .looping [] Qs Cs) (h2 : p.F + 1 ≤ p.reducedShare.length) :
      PEffect codec pp tb p st .refresh { p with reducedShare := addPoly p.F Qs p.reducedShare ++ p.reducedShare.drop (p.F + 1) } { st with refresh := .done Cs } []
  | newOk {j d Cs old} (h1 : 1 ≤ j) (h2 : j ≤ p.N) (h3 : st.newComDone j = false) (h4 : st.refresh = .done Cs) (h5 : oldCom p j = .ok old)
      (h6 : codec.decode! d = .ok (old + Cs j)) :
      PEffect codec pp tb p st (.newCommit j (some d)) p
        { st with newComDone := upd st.newComDone j true, SCom := upd st.SCom j (some (old + Cs j)), token := upd st.token j true } []
  | newBad {j d Cs old cb} (h1 : 1 ≤ j) (h2 : j ≤ p.N) (h3 : st.newComDone j = false) (h4 : st.refresh = .done Cs) (h5 : oldCom p j = .ok old)
      (h6 : codec.decode! d = .ok cb) (h7 : cb ≠ old + Cs j) :
      PEffect codec pp tb p st (.newCommit j (some d)) p { st with newComDone := upd st.newComDone j true } []
  | distBad {ev j d n W w Cs} (h1 : DistTake p.N st ev j d n W) (h2 : st.refresh = .done Cs) (h3 : st.token j = true)
      (h4 : codec.decode! (unmarshalD (⟨[], []⟩ : PShareDist) d).wB = .ok w)
      (h5 : checkProofSingle pp p.kzg ((st.SCom j).getD 0) w ((p.pid + 1 : ℕ) : Fr) (frFrom32 0 (copy32 (unmarshalD (⟨[], []⟩ : PShareDist) d).B)).1 = .ok false) :
      PEffect codec pp tb p st ev p { st with dists := n, distWait := W, token := upd st.token j false } []
  | distOk {ev j d n W w Cs} (h1 : DistTake p.N st ev j d n W) (h2 : st.refresh = .done Cs) (h3 : st.token j = true)
      (h4 : codec.decode! (unmarshalD (⟨[], []⟩ : PShareDist) d).wB = .ok w)
      (h5 : checkProofSingle pp p.kzg ((st.SCom j).getD 0) w ((p.pid + 1 : ℕ) : Fr) (frFrom32 0 (copy32 (unmarshalD (⟨[], []⟩ : PShareDist) d).B)).1 = .ok true)
      (h6 : ¬ (st.successSent = false ∧ 2 * p.F + 1 ≤ st.SB.length + 1)) :
      PEffect codec pp tb p st ev p { st with
        dists := n
        distWait := W
        token := upd st.token j false
        SB := st.SB ++ [(j, (frFrom32 0 (copy32 (unmarshalD (⟨[], []⟩ : PShareDist) d).B)).1)] } []
  | distFull {ev j d n W w Cs full} (h1 : DistTake p.N st ev j d n W) (h2 : st.refresh = .done Cs) (h3 : st.token j = true)
      (h4 : codec.decode! (unmarshalD (⟨[], []⟩ : PShareDist) d).wB = .ok w)
      (h5 : checkProofSingle pp p.kzg ((st.SCom j).getD 0) w ((p.pid + 1 : ℕ) : Fr) (frFrom32 0 (copy32 (unmarshalD (⟨[], []⟩ : PShareDist) d).B)).1 = .ok true)
      (h6 : st.successSent = false) (h7 : 2 * p.F + 1 ≤ st.SB.length + 1)
      (h8 : lagrangeInterpolate (2 * p.F) (((st.SB ++ [(j, (frFrom32 0 (copy32 (unmarshalD (⟨[], []⟩ : PShareDist) d).B)).1)]).take (2 * p.F + 1)).map fun q => ((q.1 : ℕ) : Fr))
        (((st.SB ++ [(j, (frFrom32 0 (copy32 (unmarshalD (⟨[], []⟩ : PShareDist) d).B)).1)]).take (2 * p.F + 1)).map (·.2)) = .ok full) :
      PEffect codec pp tb p st ev { p with fullShare := full } { st with
        dists := n
        distWait := W
        token := upd st.token j false
        SB := st.SB ++ [(j, (frFrom32 0 (copy32 (unmarshalD (⟨[], []⟩ : PShareDist) d).B)).1)]
        successSent := true } [.success]
  | distPark {s d Cs} (h0 : st.dists ≠ 0) (h1 : (s + 1).toNat ≤ p.N) (h2 : st.refresh = .done Cs) (h3 : st.token (s + 1).toNat = false) :
      PEffect codec pp tb p st (.shareDist s d) p { st with dists := st.dists - 1, distWait := st.distWait ++ [((s + 1).toNat, d)] } []
  | success (h1 : st.successSent = true) (h2 : st.finished = false) :
      PEffect codec pp tb p st .success p { st with successCount := st.successCount + 1, finished := decide (2 * p.F + 1 ≤ st.successCount + 1) } []

variable {codec : PointCodec G1} {pp : Pairing Fr G1 G2 GT} {tb : Tbls}

theorem recordPoint_exact (p : Party G1 G2) (st st1 : PState G1) (k : ℕ) (m : RecoverMsg G1) (h : recordPoint p st k m = .ok st1) :
    ∃ fr Q, PointEffect p.F st k m fr Q ∧ st1 = { st with SRec := upd st.SRec k (st.SRec k ++ [(m.x, m.v)]), flgRec := fr, Q := Q } := by
  unfold recordPoint at h
  simp only at h
  split at h
  · rename_i hc
    rw [Bool.and_eq_true, Bool.not_eq_true', decide_eq_true_eq, List.length_append, List.length_singleton] at hc
    split at h
    · cases h
    · cases hl : lagrangeInterpolate p.F (((st.SRec k ++ [(m.x, m.v)]).take (p.F + 1)).map fun q => ((q.1 : ℕ) : Fr))
          (((st.SRec k ++ [(m.x, m.v)]).take (p.F + 1)).map (·.2)) with
      | error e => rw [hl] at h; cases h
      | ok poly =>
        rw [hl, Go.ok_bind] at h
        cases h
        exact ⟨_, _, Or.inr ⟨hc.1, hc.2, rfl, poly, rfl, hl⟩, rfl⟩
  · rename_i hc
    rw [Bool.and_eq_true, Bool.not_eq_true', decide_eq_true_eq, List.length_append, List.length_singleton] at hc
    cases h
    exact ⟨_, _, Or.inl ⟨hc, rfl, rfl⟩, rfl⟩

theorem dist_effect {p p' : Party G1 G2} {st st' : PState G1} {ev : PEvent} {out : List POut} {j : ℕ} {d : Bytes} {n : ℕ} {W : List (ℕ × Bytes)} {Cs : ℕ → G1}
    (h1 : DistTake p.N st ev j d n W) (hd : st.refresh = .done Cs) (ht : st.token j = true)
    (h : shareDistStep codec pp p { st with dists := n, distWait := W } j (unmarshalD (⟨[], []⟩ : PShareDist) d) = .ok (p', st', out)) :
    PEffect codec pp tb p st ev p' st' out := by
  unfold shareDistStep at h
  simp only at h
  cases hw : codec.decode! (unmarshalD (⟨[], []⟩ : PShareDist) d).wB with
  | error e => rw [hw] at h; cases h
  | ok w =>
    rw [hw, Go.ok_bind] at h
    cases hck : checkProofSingle pp p.kzg ((st.SCom j).getD 0) w ((p.pid + 1 : ℕ) : Fr)
      (frFrom32 0 (copy32 (unmarshalD (⟨[], []⟩ : PShareDist) d).B)).1 with
    | error e => rw [hck] at h; cases h
    | ok ok =>
      rw [hck, Go.ok_bind] at h
      split at h
      · rename_i hok
        subst hok
        split at h
        · rename_i hc
          rw [Bool.and_eq_true, Bool.not_eq_true', decide_eq_true_eq, List.length_append, List.length_singleton] at hc
          generalize hl : lagrangeInterpolate (K := Fr) (2 * p.F) _ _ = r2 at h
          cases r2 with
          | error e => cases h
          | ok full => cases h; exact .distFull h1 hd ht hw hck hc.1 hc.2 hl
        · rename_i hc
          rw [Bool.and_eq_true, Bool.not_eq_true', decide_eq_true_eq, List.length_append, List.length_singleton] at hc
          cases h; exact .distOk h1 hd ht hw hck hc
      · rename_i hok
        rw [Bool.not_eq_true] at hok
        subst hok
        cases h; exact .distBad h1 hd ht hw hck

theorem step_effect {p p' : Party G1 G2} {st st' : PState G1} {ev : PEvent} {out : List POut}
    (hs : proactStep codec pp tb p st ev = some (.ok (p', st', out))) : PEffect codec pp tb p st ev p' st' out := by
  unfold proactStep at hs
  cases ev with
  | commit j data =>
    simp only at hs
    split at hs
    · rename_i hc
      cases data with
      | none => cases hs
      | some d =>
        simp only at hs
        cases hv : verifyCommit codec pp p (st.CQ j) (unmarshalD (⟨[]⟩ : PCommit) d) with
        | error e => rw [hv] at hs; cases hs
        | ok r =>
          obtain ⟨row, ok⟩ := r
          rw [hv] at hs
          cases hs
          exact .commit hc.1 hc.2.1 hc.2.2 hv
    · cases hs
  | reshare sender data =>
    simp only at hs
    split at hs
    · cases hs
    · rename_i h0
      split at hs
      · cases hs
      · rename_i hn
        split at hs
        · rename_i hc
          cases hv : vote codec pp tb p (st.CQ (sender + 1).toNat) (sender + 1).toNat (unmarshalD (⟨[], []⟩ : PReshare) data) with
          | error e => rw [hv] at hs; cases hs
          | ok r => rw [hv] at hs; cases hs; exact .reshare (.now h0 (not_lt.1 hn)) hc hv
        · rename_i hc
          cases hs; exact .resharePark h0 (not_lt.1 hn) (Bool.not_eq_true _ ▸ hc)
  | vote j data =>
    simp only at hs
    split at hs
    · rename_i hc
      cases hv : vote codec pp tb p (st.CQ j) j (unmarshalD (⟨[], []⟩ : PReshare) data) with
      | error e => rw [hv] at hs; cases hs
      | ok r => rw [hv] at hs; cases hs; exact .reshare (.later hc.1 hc.2.2) hc.2.1 hv
    · cases hs
  | takeRecover sender data =>
    simp only at hs
    split at hs
    · cases hs
    · rename_i hsl
      cases hv : decodeRecover codec p sender data with
      | error e => rw [hv] at hs; cases hs
      | ok m => rw [hv] at hs; cases hs; exact .take hsl hv
  | passRecover =>
    simp only at hs
    split at hs
    · cases hs
    · rename_i m hsl
      split at hs
      · rename_i hc
        cases hs
        exact .pass hsl hc.1 hc.2.1 hc.2.2.1 hc.2.2.2.1 (Option.isNone_iff_eq_none.1 hc.2.2.2.2)
      · cases hs
  | handleRecover k =>
    simp only at hs
    split at hs
    · cases hs
    · rename_i hrun
      rw [Bool.not_eq_true] at hrun
      split at hs
      · cases hs
      · rename_i m hheld
        cases hh : handleRecover pp tb p st k m with
        | error e => rw [hh] at hs; cases hs
        | ok r =>
          obtain ⟨s2, o2⟩ := r
          rw [hh] at hs
          cases hs
          unfold handleRecover at hh
          cases hck : checkProofSingle pp p.kzg (st.CQ k (p.pid + 1)) m.w ((m.x : ℕ) : Fr) m.v with
          | error e => rw [hck] at hh; cases hh
          | ok ok =>
            rw [hck, Go.ok_bind] at hh
            split at hh
            · rename_i hcond
              rw [Bool.and_eq_true] at hcond
              obtain ⟨rfl, hsig⟩ := hcond
              cases h1 : recordPoint p st k m with
              | error e => rw [h1] at hh; cases hh
              | ok st1 =>
                rw [h1, Go.ok_bind] at hh
                obtain ⟨fr, Q, hQ, rfl⟩ := recordPoint_exact p st st1 k m h1
                unfold recordSig at hh
                simp only at hh
                split at hh
                · rename_i hc4
                  rw [Bool.and_eq_true, Bool.not_eq_true', decide_eq_true_eq, List.length_append, List.length_singleton] at hc4
                  split at hh
                  · cases hh
                  · split at hh
                    · rename_i hc6
                      rw [Bool.and_eq_true, Bool.not_eq_true', decide_eq_true_eq, List.length_append, List.length_singleton] at hc6
                      cases hh
                      exact .handleCall hrun hheld ⟨hck, hsig⟩ hQ hc4.1 hc4.2 hc6.1 hc6.2
                    · rename_i hc6
                      rw [Bool.and_eq_true, Bool.not_eq_true', decide_eq_true_eq, List.length_append, List.length_singleton] at hc6
                      cases hh
                      exact .handleComb hrun hheld ⟨hck, hsig⟩ hQ hc4.1 hc4.2 hc6
                · rename_i hc4
                  rw [Bool.and_eq_true, Bool.not_eq_true', decide_eq_true_eq, List.length_append, List.length_singleton] at hc4
                  cases hh
                  exact .handleOk hrun hheld ⟨hck, hsig⟩ hQ hc4
            · rename_i hcond
              rw [Bool.and_eq_true] at hcond
              cases hh
              refine .handleBad hrun hheld ?_
              rintro ⟨a1, a2⟩
              rw [hck] at a1
              exact hcond ⟨Except.ok.inj a1, a2⟩
  | mvba result =>
    simp only at hs
    split at hs
    · rename_i h
      cases hs
      exact .mvba h
    · cases hs
  | refresh =>
    simp only at hs
    split at hs
    · cases hs
    · rename_i r hr'
      cases r with
      | error e => cases hs
      | ok r =>
        obtain ⟨p2, st2⟩ := r
        cases hs
        unfold refreshStep at hr'
        split at hr'
        · cases hr'
        · cases hr'
        · rename_i hst
          split at hr'
          · cases hr'
          · rename_i hlt
            cases hr'
            exact .refreshEnd hst (not_lt.1 hlt)
        · rename_i j rest Qs Cs hst
          split at hr'
          · cases hr'
          · rename_i hN
            split at hr'
            · rename_i hw
              split at hr'
              · rename_i hfr
                cases hcp : commitToPoly p.kzg (st.Q j) with
                | error e => rw [hcp] at hr'; cases hr'
                | ok c => rw [hcp] at hr'; cases hr'; exact .refreshRec hst (not_lt.1 hN) hw hfr hcp
              · cases hr'
            · rename_i hw
              rw [Bool.not_eq_true] at hw
              split at hr'
              · rename_i hc
                cases hr'
                exact .refreshCom hst (not_lt.1 hN) hc hw
              · rename_i hc
                rw [Bool.not_eq_true] at hc
                cases hr'
                exact .refreshPark hst (not_lt.1 hN) hc hw
  | newCommit j data =>
    simp only at hs
    split at hs
    · rename_i hc
      split at hs
      · rename_i Cs hd
        cases data with
        | none => cases hs
        | some d =>
          simp only at hs
          unfold newCommitStep at hs
          cases h1 : oldCom p j with
          | error e => rw [h1] at hs; cases hs
          | ok old =>
            cases h2 : codec.decode! d with
            | error e => rw [h1, h2] at hs; cases hs
            | ok cb =>
              rw [h1, h2, Go.ok_bind, Go.ok_bind] at hs
              split at hs
              · rename_i he
                subst he
                cases hs
                exact .newOk hc.1 hc.2.1 hc.2.2 hd h1 h2
              · rename_i he
                cases hs
                exact .newBad hc.1 hc.2.1 hc.2.2 hd h1 h2 he
      · cases hs
    · cases hs
  | shareDist sender data =>
    simp only at hs
    split at hs
    · rename_i Cs hd
      split at hs
      · cases hs
      · rename_i hN
        split at hs
        · cases hs
        · rename_i hn
          split at hs
          · rename_i ht
            exact dist_effect (.now hN (not_lt.1 hn)) hd ht (Option.some.inj hs)
          · rename_i ht
            cases hs
            exact .distPark hN (not_lt.1 hn) hd (Bool.not_eq_true _ ▸ ht)
    · cases hs
  | dist j data =>
    simp only at hs
    split at hs
    · rename_i Cs hd
      split at hs
      · rename_i hc
        exact dist_effect (.later hc.1) hd hc.2 (Option.some.inj hs)
      · cases hs
    · cases hs
  | success =>
    simp only at hs
    split at hs
    · rename_i hc
      cases hs
      exact .success hc.1 hc.2
    · cases hs

end

end DyCAPS

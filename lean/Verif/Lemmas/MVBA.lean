import Verif.Model.MVBA
import Mathlib.Data.Finset.Lattice.Basic
import Mathlib.Tactic.Ring
import Mathlib.Tactic.Linarith

/-!
# Agreement: quorums and the invariant behind agreement within a round
-/

namespace DyCAPS

@[simp] theorem setRound_rounds (st : MState) (r r' : ℕ) (R : MRound) : (st.setRound r R).rounds r' = if r' = r then R else st.rounds r' := rfl
@[simp] theorem setRound_round (st : MState) (r : ℕ) (R : MRound) : (st.setRound r R).round = st.round := rfl
@[simp] theorem setRound_halt (st : MState) (r : ℕ) (R : MRound) : (st.setRound r R).halt = st.halt := rfl
@[simp] theorem setRound_phase (st : MState) (r : ℕ) (R : MRound) : (st.setRound r R).phase = st.phase := rfl
@[simp] theorem setRound_value (st : MState) (r : ℕ) (R : MRound) : (st.setRound r R).value = st.value := rfl
@[simp] theorem setRound_dead (st : MState) (r : ℕ) (R : MRound) : (st.setRound r R).dead = st.dead := rfl

/-- Committee: `N = 3F+1`, honest parties have numbers below `N`, at most `F` are corrupt. -/
structure Committee (env : MEnv) (H : Finset ℕ) : Prop where
  size : env.N = 3 * env.F + 1
  sub : ∀ i ∈ H, i < env.N
  faults : 2 * env.F + 1 ≤ H.card

/-! ## Quorums -/

theorem signers_mono {N : ℕ} {H : Finset ℕ} {s s' : List (ℕ × SMsg)} (h : ∀ x ∈ s, x ∈ s') (m : SMsg) : signers N H s m ⊆ signers N H s' m := by
  intro i hi
  unfold signers at *
  rw [Finset.mem_filter] at *
  exact ⟨hi.1, hi.2.imp id (h _)⟩

theorem Quorum.mono {env : MEnv} {H : Finset ℕ} {s s' : List (ℕ × SMsg)} (h : ∀ x ∈ s, x ∈ s') {m : SMsg} (hq : Quorum env H s m) : Quorum env H s' m :=
  le_trans hq (Finset.card_le_card (signers_mono h m))

theorem card_inter_lower {A B U : Finset ℕ} (hA : A ⊆ U) (hB : B ⊆ U) : A.card + B.card ≤ U.card + (A ∩ B).card := by
  rw [← Finset.card_union_add_card_inter]
  have := Finset.card_le_card (Finset.union_subset hA hB)
  omega

theorem signers_sub (N : ℕ) (H : Finset ℕ) (s : List (ℕ × SMsg)) (m : SMsg) : signers N H s m ⊆ Finset.range N := Finset.filter_subset _ _

theorem Committee.sub_range {env : MEnv} {H : Finset ℕ} (hc : Committee env H) : H ⊆ Finset.range env.N := fun i hi => Finset.mem_range.2 (hc.sub i hi)

/-- A quorum contains `F+1` honest signers. -/
theorem Quorum.honest_card {env : MEnv} {H : Finset ℕ} (hc : Committee env H) {s : List (ℕ × SMsg)} {m : SMsg} (hq : Quorum env H s m) :
    env.F + 1 ≤ (signers env.N H s m ∩ H).card := by
  have h := card_inter_lower (signers_sub env.N H s m) hc.sub_range
  rw [Finset.card_range, hc.size] at h
  have h1 := hc.faults
  have h2 : 2 * env.F + 1 ≤ (signers env.N H s m).card := hq
  rw [hc.size] at h2 ⊢
  omega

theorem Quorum.honest {env : MEnv} {H : Finset ℕ} (hc : Committee env H) {s : List (ℕ × SMsg)} {m : SMsg} (hq : Quorum env H s m) : ∃ i ∈ H, (i, m) ∈ s := by
  have h := hq.honest_card hc
  obtain ⟨i, hi⟩ := Finset.card_pos.1 (lt_of_lt_of_le (Nat.succ_pos _) h)
  rw [Finset.mem_inter] at hi
  obtain ⟨h1, h2⟩ := hi
  exact ⟨i, h2, ((Finset.mem_filter.1 h1).2).resolve_left (fun h => h h2)⟩

/-- Two quorums share an honest signer. -/
theorem Quorum.common {env : MEnv} {H : Finset ℕ} (hc : Committee env H) {s : List (ℕ × SMsg)} {m m' : SMsg} (hq : Quorum env H s m) (hq' : Quorum env H s m') :
    ∃ i ∈ H, (i, m) ∈ s ∧ (i, m') ∈ s := by
  have h := card_inter_lower (signers_sub env.N H s m) (signers_sub env.N H s m')
  rw [Finset.card_range] at h
  have h3 := card_inter_lower (Finset.inter_subset_left.trans (signers_sub env.N H s m) : signers env.N H s m ∩ signers env.N H s m' ⊆ _) hc.sub_range
  rw [Finset.card_range] at h3
  have h1 : 2 * env.F + 1 ≤ (signers env.N H s m).card := hq
  have h2 : 2 * env.F + 1 ≤ (signers env.N H s m').card := hq'
  have h4 := hc.faults
  have h5 := hc.size
  obtain ⟨i, hi⟩ := Finset.card_pos.1 (show 0 < (signers env.N H s m ∩ signers env.N H s m' ∩ H).card by omega)
  rw [Finset.mem_inter, Finset.mem_inter] at hi
  obtain ⟨⟨a, b⟩, c⟩ := hi
  exact ⟨i, c, ((Finset.mem_filter.1 a).2).resolve_left (fun h => h c), ((Finset.mem_filter.1 b).2).resolve_left (fun h => h c)⟩

/-! ## The invariant -/

def SMsg.rnd : SMsg → ℕ
  | .echo r _ _ _ => r
  | .done r => r
  | .no r => r
  | .unlock r => r

/-- What holds of the variables of round `r` of honest party `i`. -/
structure RInv (env : MEnv) (H : Finset ℕ) (i : ℕ) (signed : List (ℕ × SMsg)) (r : ℕ) (R : MRound) : Prop where
  first : ∀ j h, (i, SMsg.echo r j 1 h) ∈ signed → R.recv j ≠ .first
  once : ∀ j h h', (i, SMsg.echo r j 1 h) ∈ signed → (i, SMsg.echo r j 1 h') ∈ signed → h = h'
  second : ∀ j h, (i, SMsg.echo r j 2 h) ∈ signed → Quorum env H signed (.echo r j 1 h)
  pv : ∀ v sig, R.pvOut = some (.yes v sig) → ∃ l, R.leader = some l ∧ Quorum env H signed (.echo r l 1 (env.hash v))
  fin : ∀ s v sig, R.fin s = some (v, sig) → Quorum env H signed (.echo r s 2 (env.hash v))
  vo : ∀ v sig, R.voteOut = some (.yes v sig) ∨ R.voteOut = some (.other v sig) → ∃ l, R.leader = some l ∧ Quorum env H signed (.echo r l 1 (env.hash v))
  lead : ∀ l, R.leader = some l → R.coins.length = 2 * env.F + 1 ∧ l = leaderOf env ((env.recover (.done r) R.coins).getD [])
  coins : R.leader = none → R.coins.length ≤ 2 * env.F
  valid : ∀ sh ∈ R.coins, (env.share (.done r) sh).isSome

/-- What holds of honest party `i`. -/
structure PInvM (env : MEnv) (H : Finset ℕ) (i : ℕ) (signed : List (ℕ × SMsg)) (st : MState) : Prop where
  rounds : ∀ r, RInv env H i signed r (st.rounds r)
  past : ∀ m, (i, m) ∈ signed → m.rnd ≤ st.round
  halt : ∀ r v, st.halt = some (r, v) → r ≤ st.round ∧ ∃ l, (st.rounds r).leader = some l ∧ Quorum env H signed (.echo r l 2 (env.hash v))
  join : ∀ l, st.phase = .join l ∨ st.phase = .result l → (st.rounds st.round).leader = some l
  decided : ∀ r v, st.phase = .decided r v → r ≤ st.round ∧ ∃ l, (st.rounds r).leader = some l ∧
    ((∃ sig, (st.rounds r).voteOut = some (.yes v sig)) ∨ Quorum env H signed (.echo r l 2 (env.hash v)))

theorem RInv.grow {env : MEnv} {H : Finset ℕ} {i : ℕ} {s s' : List (ℕ × SMsg)} {r : ℕ} {R : MRound} (h : RInv env H i s r R) (hs : ∀ x ∈ s, x ∈ s')
    (hn : ∀ m, (i, m) ∈ s' → m.rnd = r → (i, m) ∈ s) : RInv env H i s' r R where
  first j h' hm := h.first j h' (hn _ hm rfl)
  once j a b ha hb := h.once j a b (hn _ ha rfl) (hn _ hb rfl)
  second j h' hm := (h.second j h' (hn _ hm rfl)).mono hs
  pv v sig hp := (h.pv v sig hp).imp fun l hl => ⟨hl.1, hl.2.mono hs⟩
  fin s v sig hf := (h.fin s v sig hf).mono hs
  vo v sig hv := (h.vo v sig hv).imp fun l hl => ⟨hl.1, hl.2.mono hs⟩
  lead := h.lead
  coins := h.coins
  valid := h.valid

theorem PInvM.grow {env : MEnv} {H : Finset ℕ} {i : ℕ} {s s' : List (ℕ × SMsg)} {st : MState} (h : PInvM env H i s st) (hs : ∀ x ∈ s, x ∈ s')
    (hn : ∀ m, (i, m) ∈ s' → (i, m) ∈ s) : PInvM env H i s' st where
  rounds r := (h.rounds r).grow hs fun m hm _ => hn m hm
  past m hm := h.past m (hn m hm)
  halt r v hh := ⟨(h.halt r v hh).1, (h.halt r v hh).2.imp fun l hl => ⟨hl.1, hl.2.mono hs⟩⟩
  join := h.join
  decided r v hd := ⟨(h.decided r v hd).1, (h.decided r v hd).2.imp fun l hl => ⟨hl.1, hl.2.imp id (·.mono hs)⟩⟩

/-- A step that changes the variables of round `r` only (not the leader) and signs strings of round `r`. -/
theorem PInvM.setRound {env : MEnv} {H : Finset ℕ} {i : ℕ} {s : List (ℕ × SMsg)} {st : MState} (h : PInvM env H i s st) {r : ℕ} (hr : r ≤ st.round) {R : MRound}
    {new : List SMsg} (hnew : ∀ m ∈ new, m.rnd = r) (hl : ∀ l, (st.rounds r).leader = some l → R.leader = some l)
    (hv : ∀ x, (st.rounds r).voteOut = some x → R.voteOut = some x) (hR : RInv env H i (s ++ new.map fun m => (i, m)) r R) : PInvM env H i (s ++ new.map fun m => (i, m)) (st.setRound r R) := by
  have hs : ∀ x ∈ s, x ∈ s ++ new.map fun m => (i, m) := fun x hx => List.mem_append_left _ hx
  have hlead : ∀ r' l, (st.rounds r').leader = some l → ((st.setRound r R).rounds r').leader = some l := by
    intro r' l hl'
    rw [setRound_rounds]
    split
    · rename_i e; subst e; exact hl l hl'
    · exact hl'
  refine ⟨fun r' => ?_, fun m hm => ?_, fun r' v hh => ?_, fun l hp => ?_, fun r' v hd => ?_⟩
  · rw [setRound_rounds]
    split
    · rename_i e; subst e; exact hR
    · rename_i e
      refine (h.rounds r').grow hs fun m hm hmr => ?_
      rcases List.mem_append.1 hm with hm | hm
      · exact hm
      · obtain ⟨m', hm', he⟩ := List.mem_map.1 hm
        have := hnew m' hm'
        cases he
        exact absurd (hmr.symm.trans this) e
  · rcases List.mem_append.1 hm with hm | hm
    · exact h.past m hm
    · obtain ⟨m', hm', he⟩ := List.mem_map.1 hm
      cases he
      rw [hnew _ hm']; exact hr
  · obtain ⟨a, l, b, c⟩ := h.halt r' v hh
    exact ⟨a, l, hlead _ _ b, c.mono hs⟩
  · exact hlead _ _ (h.join l hp)
  · obtain ⟨a, l, b, c⟩ := h.decided r' v hd
    refine ⟨a, l, hlead _ _ b, c.imp (fun ⟨sig, e⟩ => ⟨sig, ?_⟩) (·.mono hs)⟩
    rw [setRound_rounds]
    split
    · rename_i e'; subst e'; exact hv _ e
    · exact e

/-- The same without new signatures. -/
theorem PInvM.setRound' {env : MEnv} {H : Finset ℕ} {i : ℕ} {s : List (ℕ × SMsg)} {st : MState} (h : PInvM env H i s st) {r : ℕ} (hr : r ≤ st.round) {R : MRound}
    (hl : ∀ l, (st.rounds r).leader = some l → R.leader = some l) (hv : ∀ x, (st.rounds r).voteOut = some x → R.voteOut = some x)
    (hR : RInv env H i s r R) : PInvM env H i s (st.setRound r R) := by
  have := h.setRound (R := R) hr (new := []) (by simp) hl hv (by simpa using hR)
  simpa using this

theorem PInvM.startRound {env : MEnv} {H : Finset ℕ} {i : ℕ} {s : List (ℕ × SMsg)} {st : MState} (h : PInvM env H i s st) (v val : Bytes) :
    PInvM env H i s (startRound i (st.round + 1) v val st).1 := by
  have hns : ∀ m, (i, m) ∈ s → m.rnd ≠ st.round + 1 := fun m hm he => by have := h.past m hm; omega
  refine ⟨fun r => ?_, fun m hm => ?_, fun r v' hh => ?_, fun l hp => ?_, fun r v' hd => ?_⟩
  · show RInv env H i s r (if r = st.round + 1 then MRound.init v val else st.rounds r)
    split
    · rename_i e
      subst e
      exact ⟨fun j a hm => absurd rfl (hns _ hm), fun j a b hm => absurd rfl (hns _ hm), fun j a hm => absurd rfl (hns _ hm), (by intro v sig h; cases h), (by intro s v sig h; cases h),
        (by intro v sig h; rcases h with h | h <;> cases h), (by intro l h; cases h), fun _ => by simp [MRound.init], by simp [MRound.init]⟩
    · exact h.rounds r
  · have := h.past m hm
    show m.rnd ≤ st.round + 1
    omega
  · obtain ⟨a, l, b, c⟩ := h.halt r v' hh
    refine ⟨Nat.le_succ_of_le a, l, ?_, c⟩
    show (if r = st.round + 1 then MRound.init v val else st.rounds r).leader = _
    rw [if_neg (by omega)]; exact b
  · rcases hp with hp | hp <;> cases hp
  · cases hd

/-- The signatures in a message are no forgeries. -/
def SigsOk (env : MEnv) (H : Finset ℕ) (signed : List (ℕ × SMsg)) : MEvent → Prop
  | .recv _ m => ∀ b ∈ m.sigs, Genuine env H signed b
  | _ => True

theorem mem_new {i : ℕ} {s : List (ℕ × SMsg)} {m m' : SMsg} : (i, m) ∈ s ++ [m'].map (fun m => (i, m)) ↔ (i, m) ∈ s ∨ m = m' := by
  simp

theorem PInvM.onValue {env : MEnv} {H : Finset ℕ} {i : ℕ} {s : List (ℕ × SMsg)} {st : MState} (h : PInvM env H i s st) {r j stage : ℕ} {v val : Bytes} {o : MOut}
    (hg : Genuine env H s val) (ho : onValue env st r j stage v val = some o) : PInvM env H i (s ++ o.signed.map fun m => (i, m)) o.st := by
  unfold DyCAPS.onValue at ho
  simp only at ho
  have hR := h.rounds r
  split at ho
  · rename_i hr
    split at ho
    · rename_i hpos
      cases ho
      have hs : ∀ x ∈ s, x ∈ s ++ [SMsg.echo r j 1 (env.hash v)].map fun m => (i, m) := fun x hx => List.mem_append_left _ hx
      refine h.setRound hr.1 (by simp [SMsg.rnd]) (fun l hl => hl) (fun _ h => h) ⟨?_, ?_, ?_, ?_, ?_, ?_, hR.lead, hR.coins, hR.valid⟩
      · intro j' h' hm
        rw [mem_new] at hm
        show (if j' = j then PbPos.second else _) ≠ _
        split
        · simp
        · rcases hm with hm | hm
          · exact hR.first _ _ hm
          · cases hm; rename_i hne; exact absurd rfl hne
      · intro j' a b ha hb
        rw [mem_new] at ha hb
        rcases ha with ha | ha <;> rcases hb with hb | hb
        · exact hR.once _ _ _ ha hb
        · cases hb; exact absurd hpos (hR.first _ _ ha)
        · cases ha; exact absurd hpos (hR.first _ _ hb)
        · cases ha; cases hb; rfl
      · intro j' a hm
        rw [mem_new] at hm
        rcases hm with hm | hm
        · exact (hR.second _ _ hm).mono hs
        · cases hm
      · exact fun v' sig hp => (hR.pv v' sig hp).imp fun l hl => ⟨hl.1, hl.2.mono hs⟩
      · exact fun s v' sig hf => (hR.fin s v' sig hf).mono hs
      · exact fun v' sig hv => (hR.vo v' sig hv).imp fun l hl => ⟨hl.1, hl.2.mono hs⟩
    · rename_i hpos
      split at ho
      · rename_i hcert
        cases ho
        have hs : ∀ x ∈ s, x ∈ s ++ [SMsg.echo r j 2 (env.hash v)].map fun m => (i, m) := fun x hx => List.mem_append_left _ hx
        refine h.setRound hr.1 (by simp [SMsg.rnd]) (fun l hl => hl) (fun _ h => h) ⟨?_, ?_, ?_, ?_, ?_, ?_, hR.lead, hR.coins, hR.valid⟩
        · intro j' h' hm
          rw [mem_new] at hm
          show (if j' = j then PbPos.ended else _) ≠ _
          split
          · simp
          · rcases hm with hm | hm
            · exact hR.first _ _ hm
            · cases hm
        · intro j' a b ha hb
          rw [mem_new] at ha hb
          rcases ha with ha | ha <;> rcases hb with hb | hb
          · exact hR.once _ _ _ ha hb
          · cases hb
          · cases ha
          · cases ha
        · intro j' a hm
          rw [mem_new] at hm
          rcases hm with hm | hm
          · exact (hR.second _ _ hm).mono hs
          · cases hm
            exact ((hg _).2 hcert).mono hs
        · exact fun v' sig hp => (hR.pv v' sig hp).imp fun l hl => ⟨hl.1, hl.2.mono hs⟩
        · exact fun s v' sig hf => (hR.fin s v' sig hf).mono hs
        · exact fun v' sig hv => (hR.vo v' sig hv).imp fun l hl => ⟨hl.1, hl.2.mono hs⟩
      · cases ho
        simp only [List.map_nil, List.append_nil]
        exact ⟨h.rounds, h.past, h.halt, h.join, h.decided⟩
    · cases ho
  · cases ho

/-- Steps that touch only the sender side or flags. -/
theorem RInv.keep {env : MEnv} {H : Finset ℕ} {i : ℕ} {s : List (ℕ × SMsg)} {r : ℕ} {R R' : MRound} (h : RInv env H i s r R) (h1 : R'.recv = R.recv) (h2 : R'.pvOut = R.pvOut)
    (h3 : R'.fin = R.fin) (h4 : R'.voteOut = R.voteOut) (h5 : R'.leader = R.leader) (h6 : R'.coins = R.coins) : RInv env H i s r R' :=
  ⟨by rw [h1]; exact h.first, h.once, h.second, by rw [h2, h5]; exact h.pv, by rw [h3]; exact h.fin, by rw [h4, h5]; exact h.vo, by rw [h5, h6]; exact h.lead,
    by rw [h5, h6]; exact h.coins, by rw [h6]; exact h.valid⟩

theorem PInvM.onEchoShare {env : MEnv} {H : Finset ℕ} {i : ℕ} {s : List (ℕ × SMsg)} {st : MState} (h : PInvM env H i s st) {r j stage : ℕ} {sh : Bytes} {o : MOut}
    (ho : onEchoShare env i st r j stage sh = some o) : PInvM env H i (s ++ o.signed.map fun m => (i, m)) o.st := by
  unfold DyCAPS.onEchoShare at ho
  simp only at ho
  have hR := h.rounds r
  split at ho
  · rename_i hr
    split at ho
    · split at ho
      · split at ho
        · cases ho; simp only [List.map_nil, List.append_nil]; exact h.setRound' hr.1 (fun l hl => hl) (fun _ h => h) (hR.keep rfl rfl rfl rfl rfl rfl)
        · cases ho; simp only [List.map_nil, List.append_nil]; exact h.setRound' hr.1 (fun l hl => hl) (fun _ h => h) (hR.keep rfl rfl rfl rfl rfl rfl)
      · cases ho; simpa using h
    · split at ho
      · split at ho
        · cases ho; simp only [List.map_nil, List.append_nil]; exact h.setRound' hr.1 (fun l hl => hl) (fun _ h => h) (hR.keep rfl rfl rfl rfl rfl rfl)
        · cases ho; simp only [List.map_nil, List.append_nil]; exact h.setRound' hr.1 (fun l hl => hl) (fun _ h => h) (hR.keep rfl rfl rfl rfl rfl rfl)
      · cases ho; simpa using h
    · cases ho
  · cases ho

theorem PInvM.onFinish {env : MEnv} {H : Finset ℕ} {i : ℕ} {s : List (ℕ × SMsg)} {st : MState} (h : PInvM env H i s st) {r q : ℕ} {v sig : Bytes} {o : MOut}
    (hg : Genuine env H s sig) (ho : onFinish env st r q v sig = some o) : PInvM env H i (s ++ o.signed.map fun m => (i, m)) o.st := by
  unfold DyCAPS.onFinish at ho
  simp only at ho
  have hR := h.rounds r
  split at ho
  · rename_i hr
    split at ho
    · split at ho
      · rename_i hcert
        cases ho
        simp only [List.map_nil, List.append_nil]
        refine h.setRound' hr (fun l hl => hl) (fun _ h => h) ⟨hR.first, hR.once, hR.second, hR.pv, ?_, hR.vo, hR.lead, hR.coins, hR.valid⟩
        intro q' v' sig' hf
        simp only at hf
        split at hf
        · rename_i e
          cases hf
          rw [e]
          exact (hg _).2 hcert
        · exact hR.fin _ _ _ hf
      · cases ho; simpa using h
    · cases ho
      simp only [List.map_nil, List.append_nil]
      exact ⟨h.rounds, h.past, h.halt, h.join, h.decided⟩
  · cases ho

theorem PInvM.onDone {env : MEnv} {H : Finset ℕ} {i : ℕ} {s : List (ℕ × SMsg)} {st : MState} (h : PInvM env H i s st) {r : ℕ} {sh : Bytes} {o : MOut}
    (ho : onDone env st r sh = some o) : PInvM env H i (s ++ o.signed.map fun m => (i, m)) o.st := by
  unfold DyCAPS.onDone at ho
  simp only at ho
  have hR := h.rounds r
  split at ho
  · rename_i hr
    split at ho
    · rename_i hsh
      cases ho
      simp only [List.map_nil, List.append_nil]
      refine h.setRound' hr.1 (fun l hl => by rw [hr.2] at hl; cases hl) (fun _ h => h) ⟨hR.first, hR.once, hR.second, ?_, hR.fin, ?_, ?_, ?_, ?_⟩
      · intro v sig hp
        obtain ⟨l, hl, -⟩ := hR.pv v sig hp
        rw [hr.2] at hl; cases hl
      · intro v sig hp
        obtain ⟨l, hl, -⟩ := hR.vo v sig hp
        rw [hr.2] at hl; cases hl
      · intro l hl
        have := hR.coins hr.2
        simp only at hl
        split at hl
        · rename_i hlt
          cases hl
          refine ⟨?_, rfl⟩
          simp only [List.length_append, List.length_singleton] at hlt ⊢
          omega
        · cases hl
      · intro hl
        simp only at hl
        split at hl
        · cases hl
        · rename_i hlt
          exact Nat.le_of_not_lt hlt
      · intro x hx
        rcases List.mem_append.1 hx with hx | hx
        · exact hR.valid x hx
        · rw [List.mem_singleton.1 hx]; exact hsh
    · cases ho; simpa using h
  · cases ho

theorem PInvM.onHalt {env : MEnv} {H : Finset ℕ} {i : ℕ} {s : List (ℕ × SMsg)} {st : MState} (h : PInvM env H i s st) {r : ℕ} {v sig : Bytes} {o : MOut}
    (hg : Genuine env H s sig) (ho : onHalt env st r v sig = some o) : PInvM env H i (s ++ o.signed.map fun m => (i, m)) o.st := by
  unfold DyCAPS.onHalt at ho
  simp only at ho
  have hR := h.rounds r
  split at ho
  · cases ho
  · rename_i l hl
    split at ho
    · rename_i hr
      split at ho
      · rename_i hcert
        split at ho
        · cases ho
        · cases ho
          simp only [List.map_nil, List.append_nil]
          have h' := h.setRound' hr.1 (R := { st.rounds r with haltDone := true }) (fun l hl => hl) (fun _ h => h) (hR.keep rfl rfl rfl rfl rfl rfl)
          refine ⟨h'.rounds, h'.past, ?_, h'.join, h'.decided⟩
          intro r' v' he
          cases he
          exact ⟨hr.1, l, by simpa using hl, (hg _).2 hcert⟩
      · cases ho; simpa using h
    · cases ho

theorem or_some_eq {α : Type} {a : Option α} {b c : α} (h : a.or (some b) = some c) : a = some c ∨ (a = none ∧ b = c) := by
  cases a with
  | none => right; exact ⟨rfl, by simpa using h⟩
  | some x => left; simpa using h

theorem PInvM.onPreVote {env : MEnv} {H : Finset ℕ} {i : ℕ} {s : List (ℕ × SMsg)} {st : MState} (h : PInvM env H i s st) {r : ℕ} {yes : Bool} {v sig : Bytes} {o : MOut}
    (hg : Genuine env H s sig) (ho : onPreVote env st r yes v sig = some o) : PInvM env H i (s ++ o.signed.map fun m => (i, m)) o.st := by
  unfold DyCAPS.onPreVote at ho
  simp only at ho
  have hR := h.rounds r
  split at ho
  · cases ho
  · rename_i l hl
    split at ho
    · rename_i hr
      split at ho
      · split at ho
        · rename_i hcert
          cases ho
          simp only [List.map_nil, List.append_nil]
          refine h.setRound' hr (fun l hl => hl) (fun _ h => h) ⟨hR.first, hR.once, hR.second, ?_, hR.fin, hR.vo, hR.lead, hR.coins, hR.valid⟩
          intro v' sig' hp
          rcases or_some_eq hp with hp | ⟨-, hp⟩
          · exact hR.pv v' sig' hp
          · cases hp
            exact ⟨l, hl, (hg _).2 hcert⟩
        · cases ho; simpa using h
      · split at ho
        · cases ho
          simp only [List.map_nil, List.append_nil]
          refine h.setRound' hr (fun l hl => hl) (fun _ h => h) ⟨hR.first, hR.once, hR.second, ?_, hR.fin, hR.vo, hR.lead, hR.coins, hR.valid⟩
          intro v' sig' hp
          simp only at hp
          split at hp
          · rcases or_some_eq hp with hp | ⟨-, hp⟩
            · exact hR.pv v' sig' hp
            · cases hp
          · exact hR.pv v' sig' hp
        · cases ho; simpa using h
    · cases ho

theorem or_mono {α : Type} {a b : Option α} {x : α} (h : a = some x) : a.or b = some x := by rw [h]; rfl

theorem PInvM.onVote {env : MEnv} {H : Finset ℕ} {i : ℕ} {s : List (ℕ × SMsg)} {st : MState} (h : PInvM env H i s st) {r : ℕ} {yes : Bool} {v sig sh : Bytes} {o : MOut}
    (hg : Genuine env H s sig) (ho : onVote env st r yes v sig sh = some o) : PInvM env H i (s ++ o.signed.map fun m => (i, m)) o.st := by
  unfold DyCAPS.onVote at ho
  simp only at ho
  have hR := h.rounds r
  split at ho
  · cases ho
  · rename_i l hl
    split at ho
    · rename_i hr
      split at ho
      · split at ho
        · rename_i hcert
          rw [Bool.and_eq_true] at hcert
          cases ho
          simp only [List.map_nil, List.append_nil]
          refine h.setRound' hr (fun l hl => hl) (fun x h => by simp only; split_ifs <;> first | exact or_mono h | exact h) ⟨hR.first, hR.once, hR.second, hR.pv, hR.fin, ?_, hR.lead, hR.coins, hR.valid⟩
          intro v' sig' hp
          simp only at hp
          split at hp
          · rcases hp with hp | hp
            · rcases or_some_eq hp with hp | ⟨-, hp⟩
              · exact hR.vo v' sig' (Or.inl hp)
              · cases hp; exact ⟨l, hl, (hg _).2 hcert.1⟩
            · rcases or_some_eq hp with hp | ⟨-, hp⟩
              · exact hR.vo v' sig' (Or.inr hp)
              · cases hp
          · split at hp
            · rcases hp with hp | hp
              · rcases or_some_eq hp with hp | ⟨-, hp⟩
                · exact hR.vo v' sig' (Or.inl hp)
                · cases hp
              · rcases or_some_eq hp with hp | ⟨-, hp⟩
                · exact hR.vo v' sig' (Or.inr hp)
                · cases hp; exact ⟨l, hl, (hg _).2 hcert.1⟩
            · exact hR.vo v' sig' hp
        · cases ho; simpa using h
      · split at ho
        · cases ho
          simp only [List.map_nil, List.append_nil]
          refine h.setRound' hr (fun l hl => hl) (fun x h => by simp only; split_ifs <;> first | exact or_mono h | exact h) ⟨hR.first, hR.once, hR.second, hR.pv, hR.fin, ?_, hR.lead, hR.coins, hR.valid⟩
          intro v' sig' hp
          simp only at hp
          split at hp
          · rcases hp with hp | hp
            · rcases or_some_eq hp with hp | ⟨-, hp⟩
              · exact hR.vo v' sig' (Or.inl hp)
              · cases hp
            · rcases or_some_eq hp with hp | ⟨-, hp⟩
              · exact hR.vo v' sig' (Or.inr hp)
              · cases hp
          · exact hR.vo v' sig' hp
        · cases ho; simpa using h
    · cases ho

/-- Signing something that is not an Echo of the first stage, with justification if it is one of the second. -/
theorem RInv.sign {env : MEnv} {H : Finset ℕ} {i : ℕ} {s : List (ℕ × SMsg)} {r : ℕ} {R : MRound} (h : RInv env H i s r R) (m : SMsg) (h1 : ∀ j a, m ≠ .echo r j 1 a)
    (h2 : ∀ j a, m = .echo r j 2 a → Quorum env H s (.echo r j 1 a)) : RInv env H i (s ++ [m].map fun m => (i, m)) r R := by
  have hs : ∀ x ∈ s, x ∈ s ++ [m].map fun m => (i, m) := fun x hx => List.mem_append_left _ hx
  refine ⟨?_, ?_, ?_, fun v' sig hp => (h.pv v' sig hp).imp fun l hl => ⟨hl.1, hl.2.mono hs⟩, fun s v' sig hf => (h.fin s v' sig hf).mono hs,
    fun v' sig hv => (h.vo v' sig hv).imp fun l hl => ⟨hl.1, hl.2.mono hs⟩, h.lead, h.coins, h.valid⟩
  · intro j a hm
    rw [mem_new] at hm
    rcases hm with hm | hm
    · exact h.first j a hm
    · exact absurd hm.symm (h1 j a)
  · intro j a b ha hb
    rw [mem_new] at ha hb
    exact h.once j a b (ha.resolve_right fun e => h1 j a e.symm) (hb.resolve_right fun e => h1 j b e.symm)
  · intro j a hm
    rw [mem_new] at hm
    rcases hm with hm | hm
    · exact (h.second j a hm).mono hs
    · exact (h2 j a hm.symm).mono hs

theorem PInvM.phase {env : MEnv} {H : Finset ℕ} {i : ℕ} {s : List (ℕ × SMsg)} {st : MState} (h : PInvM env H i s st) (ph : MPhase)
    (hj : ∀ l, ph = .join l ∨ ph = .result l → (st.rounds st.round).leader = some l)
    (hd : ∀ r v, ph = .decided r v → r ≤ st.round ∧ ∃ l, (st.rounds r).leader = some l ∧ ((∃ sig, (st.rounds r).voteOut = some (.yes v sig)) ∨ Quorum env H s (.echo r l 2 (env.hash v)))) :
    PInvM env H i s { st with phase := ph } := ⟨h.rounds, h.past, h.halt, hj, hd⟩

theorem PInvM.onJoined {env : MEnv} {H : Finset ℕ} {i : ℕ} {s : List (ℕ × SMsg)} {st : MState} (h : PInvM env H i s st) {o : MOut}
    (ho : onJoined env i st = some o) : PInvM env H i (s ++ o.signed.map fun m => (i, m)) o.st := by
  unfold DyCAPS.onJoined at ho
  simp only at ho
  have hR := h.rounds st.round
  split at ho
  · rename_i l hph
    have hlead := h.join l (Or.inl hph)
    split at ho
    · split at ho
      · rename_i v sig hfin
        cases ho
        simp only [List.map_nil, List.append_nil]
        refine h.phase _ (by intro l h; rcases h with h | h <;> cases h) ?_
        intro r v' he
        cases he
        exact ⟨le_rfl, l, hlead, Or.inr (hR.fin _ _ _ hfin)⟩
      · split at ho
        · cases ho
          simp only [List.map_nil, List.append_nil]
          have h' := h.setRound' le_rfl (R := { st.rounds st.round with voteSpawned := true }) (fun l hl => hl) (fun _ h => h) (hR.keep rfl rfl rfl rfl rfl rfl)
          refine h'.phase (.result l) ?_ (by intro r v h; cases h)
          intro l' hl'
          rcases hl' with hl' | hl' <;> cases hl'
          simpa using hlead
        · cases ho
          have h' := h.setRound le_rfl (R := { st.rounds st.round with voteSpawned := true }) (new := [.no st.round]) (by simp [SMsg.rnd]) (fun l hl => hl) (fun _ h => h)
            (RInv.keep (hR.sign (.no st.round) (by simp) (by simp)) rfl rfl rfl rfl rfl rfl)
          refine h'.phase (.result l) ?_ (by intro r v h; cases h)
          intro l' hl'
          rcases hl' with hl' | hl' <;> cases hl'
          simpa using hlead
    · cases ho
  · cases ho

theorem PInvM.onSendVote {env : MEnv} {H : Finset ℕ} {i : ℕ} {s : List (ℕ × SMsg)} {st : MState} (h : PInvM env H i s st) {r : ℕ} {o : MOut}
    (ho : onSendVote env i st r = some o) : PInvM env H i (s ++ o.signed.map fun m => (i, m)) o.st := by
  unfold DyCAPS.onSendVote at ho
  simp only at ho
  have hR := h.rounds r
  split at ho
  · rename_i hr
    split at ho
    · rename_i l v sig hl hp
      cases ho
      refine h.setRound hr.1 (new := [.echo r l 2 (env.hash v)]) (by simp [SMsg.rnd]) (fun l hl => hl) (fun _ h => h) (RInv.keep (hR.sign _ (by simp) ?_) rfl rfl rfl rfl rfl rfl)
      intro j a he
      cases he
      obtain ⟨l', hl', hq⟩ := hR.pv v sig hp
      rw [hl] at hl'
      cases hl'
      exact hq
    · cases ho
      exact h.setRound hr.1 (new := [.unlock r]) (by simp [SMsg.rnd]) (fun l hl => hl) (fun _ h => h) (RInv.keep (hR.sign _ (by simp) (by simp)) rfl rfl rfl rfl rfl rfl)
    · cases ho
  · cases ho

theorem PInvM.onTakeVote {env : MEnv} {H : Finset ℕ} {i : ℕ} {s : List (ℕ × SMsg)} {st : MState} (h : PInvM env H i s st) {o : MOut}
    (ho : onTakeVote i st = some o) : PInvM env H i (s ++ o.signed.map fun m => (i, m)) o.st := by
  unfold DyCAPS.onTakeVote at ho
  simp only at ho
  have hR := h.rounds st.round
  split at ho
  · rename_i l hph
    split at ho
    · cases ho
    · rename_i v sig hv
      cases ho
      simp only [List.map_nil, List.append_nil]
      refine h.phase _ (by intro l h; rcases h with h | h <;> cases h) ?_
      intro r v' he
      cases he
      obtain ⟨l', a, b⟩ := hR.vo v sig (Or.inl hv)
      exact ⟨le_rfl, l', a, Or.inl ⟨sig, hv⟩⟩
    · cases ho
      simp only [List.map_nil, List.append_nil]
      exact h.startRound _ _
    · cases ho
      simp only [List.map_nil, List.append_nil]
      exact h.startRound _ _
  · cases ho

theorem PInvM.step {env : MEnv} {H : Finset ℕ} {i : ℕ} {s : List (ℕ × SMsg)} {st : MState} (h : PInvM env H i s st) {ev : MEvent} {o : MOut}
    (hg : SigsOk env H s ev) (ho : mvbaStep env i st ev = some o) : PInvM env H i (s ++ o.signed.map fun m => (i, m)) o.st := by
  unfold mvbaStep at ho
  split at ho
  · cases ho
  · split at ho
    · rename_i r j stage v val
      obtain ⟨o', ho', rfl⟩ := Option.map_eq_some_iff.1 ho
      have := h.onValue (hg val (by simp [MMsg.sigs])) ho'
      exact this
    · exact h.onEchoShare ho
    · rename_i sig; exact h.onFinish (hg sig (by simp [MMsg.sigs])) ho
    · exact h.onDone ho
    · rename_i sig; exact h.onHalt (hg sig (by simp [MMsg.sigs])) ho
    · rename_i sig; exact h.onPreVote (hg sig (by simp [MMsg.sigs])) ho
    · rename_i sig sh; exact h.onVote (hg sig (by simp [MMsg.sigs])) ho
    · rename_i j
      have hR := h.rounds st.round
      simp only at ho
      split at ho
      · split at ho
        · rename_i hpos
          cases ho
          simp only [List.map_nil, List.append_nil]
          refine h.setRound' le_rfl (fun l hl => hl) (fun _ h => h) ⟨?_, hR.once, hR.second, hR.pv, hR.fin, hR.vo, hR.lead, hR.coins, hR.valid⟩
          intro j' a hm
          show (if j' = j then PbPos.second else _) ≠ _
          split
          · simp
          · exact hR.first _ _ hm
        · cases ho
          simp only [List.map_nil, List.append_nil]
          refine h.setRound' le_rfl (fun l hl => hl) (fun _ h => h) ⟨?_, hR.once, hR.second, hR.pv, hR.fin, hR.vo, hR.lead, hR.coins, hR.valid⟩
          intro j' a hm
          show (if j' = j then PbPos.ended else _) ≠ _
          split
          · simp
          · exact hR.first _ _ hm
        · cases ho
      · cases ho
    · simp only at ho
      split at ho
      · cases ho
        simpa using h.setRound' le_rfl (R := { st.rounds st.round with send := .ended }) (fun l hl => hl) (fun _ h => h) ((h.rounds st.round).keep rfl rfl rfl rfl rfl rfl)
      · cases ho
    · rename_i r
      simp only at ho
      split at ho
      · rename_i hr
        cases ho
        exact h.setRound hr.1 (new := [.done r]) (by simp [SMsg.rnd]) (fun l hl => hl) (fun _ h => h) (RInv.keep ((h.rounds r).sign _ (by simp) (by simp)) rfl rfl rfl rfl rfl rfl)
      · cases ho
    · split at ho
      · rename_i l hph hl
        cases ho
        simp only [List.map_nil, List.append_nil]
        refine h.phase _ ?_ (by intro r v h; cases h)
        intro l' hl'
        rcases hl' with hl' | hl' <;> cases hl'
        exact hl
      · cases ho
    · exact h.onJoined ho
    · exact h.onSendVote ho
    · split at ho
      · rename_i r v hph hh
        cases ho
        simp only [List.map_nil, List.append_nil]
        obtain ⟨a, l, b, c⟩ := h.halt r v hh
        exact ⟨h.rounds, h.past, by simp, (by intro l h; rcases h with h | h <;> cases h), by intro r' v' he; cases he; exact ⟨a, l, b, Or.inr c⟩⟩
      · rename_i l' r v hph hh
        cases ho
        simp only [List.map_nil, List.append_nil]
        obtain ⟨a, l, b, c⟩ := h.halt r v hh
        exact ⟨h.rounds, h.past, by simp, (by intro l h; rcases h with h | h <;> cases h), by intro r' v' he; cases he; exact ⟨a, l, b, Or.inr c⟩⟩
      · cases ho
    · exact h.onTakeVote ho

theorem MAllowed.sigsOk {env : MEnv} {H : Finset ℕ} {cfg : MNetCfg} {net : MNet} {i : ℕ} {ev : MEvent} (h : MAllowed env H cfg net i ev) : SigsOk env H net.signed ev := by
  cases ev with
  | recv s m => exact h.1
  | _ => trivial

theorem MRun.inv {env : MEnv} {H : Finset ℕ} {cfg : MNetCfg} {input : ℕ → Bytes × Bytes} {evs : List (ℕ × MEvent)} {net : MNet}
    (h : MRun env H cfg (MNet.init H input env.N) evs net) : ∀ i ∈ H, PInvM env H i net.signed (net.party i) := by
  induction h with
  | nil =>
    intro i _
    refine ⟨fun r => ?_, by simp [MNet.init], (by intro r v h; cases h), (by intro l h; rcases h with h | h <;> cases h), (by intro r v h; cases h)⟩
    have hr : ((MNet.init H input env.N).party i).rounds r = if r = 0 then MRound.init (input i).1 (input i).2 else MRound.init [] [] := rfl
    rw [hr]
    have hi : ∀ a b, RInv env H i (MNet.init H input env.N).signed r (MRound.init a b) := fun a b =>
      ⟨by simp [MNet.init], by simp [MNet.init], by simp [MNet.init], (by intro v sig h; cases h), (by intro s v sig h; cases h),
        (by intro v sig h; rcases h with h | h <;> cases h), (by intro l h; cases h), fun _ => by simp [MRound.init], by simp [MRound.init]⟩
    split
    · exact hi _ _
    · exact hi _ _
  | @snoc evs net i ev net' h hi ha hs ih =>
    intro k hk
    obtain ⟨o, ho, rfl⟩ := Option.map_eq_some_iff.1 hs
    show PInvM env H k (net.signed ++ o.signed.map fun m => (i, m)) (if k = i then o.st else net.party k)
    split
    · rename_i e
      subst e
      exact (ih k hk).step ha.sigsOk ho
    · rename_i e
      refine (ih k hk).grow (fun x hx => List.mem_append_left _ hx) fun m hm => ?_
      rcases List.mem_append.1 hm with hm | hm
      · exact hm
      · obtain ⟨m', -, he⟩ := List.mem_map.1 hm
        cases he
        exact absurd rfl e

/-! ## Uniqueness -/

theorem quorum1_unique {env : MEnv} {H : Finset ℕ} (hc : Committee env H) {cfg : MNetCfg} {input : ℕ → Bytes × Bytes} {evs : List (ℕ × MEvent)} {net : MNet}
    (h : MRun env H cfg (MNet.init H input env.N) evs net) {r j : ℕ} {a b : Bytes} (ha : Quorum env H net.signed (.echo r j 1 a)) (hb : Quorum env H net.signed (.echo r j 1 b)) :
    a = b := by
  obtain ⟨i, hi, h1, h2⟩ := ha.common hc hb
  exact ((h.inv i hi).rounds r).once j a b h1 h2

theorem quorum2_quorum1 {env : MEnv} {H : Finset ℕ} (hc : Committee env H) {cfg : MNetCfg} {input : ℕ → Bytes × Bytes} {evs : List (ℕ × MEvent)} {net : MNet}
    (h : MRun env H cfg (MNet.init H input env.N) evs net) {r j : ℕ} {a : Bytes} (ha : Quorum env H net.signed (.echo r j 2 a)) : Quorum env H net.signed (.echo r j 1 a) := by
  obtain ⟨i, hi, h1⟩ := ha.honest hc
  exact ((h.inv i hi).rounds r).second j a h1

end DyCAPS

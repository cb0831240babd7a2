import Verif.Lemmas.MVBACrash

/-!
# Agreement within a round, and across rounds without corrupt parties
-/

namespace DyCAPS

/-- The value of a decision has a first-stage quorum for the leader of its round. -/
theorem decided_quorum {env : MEnv} {H : Finset ℕ} (hc : Committee env H) {cfg : MNetCfg} {input : ℕ → Bytes × Bytes} {evs : List (ℕ × MEvent)} {net : MNet}
    (h : MRun env H cfg (MNet.init H input env.N) evs net) {i : ℕ} (hi : i ∈ H) {r : ℕ} {v : Bytes} (hd : (net.party i).phase = .decided r v) :
    r ≤ (net.party i).round ∧ ∃ l, ((net.party i).rounds r).leader = some l ∧ Quorum env H net.signed (.echo r l 1 (env.hash v)) := by
  obtain ⟨a, l, hl, b⟩ := (h.inv i hi).decided r v hd
  refine ⟨a, l, hl, ?_⟩
  rcases b with ⟨sig, b⟩ | b
  · obtain ⟨l', hl', q⟩ := ((h.inv i hi).rounds r).vo v sig (Or.inl b)
    rw [hl] at hl'
    cases hl'
    exact q
  · exact quorum2_quorum1 hc h b

theorem quorum_of_list {env : MEnv} {H : Finset ℕ} {s : List (ℕ × SMsg)} {m : SMsg} {L : List ℕ} (hn : L.Nodup) (hl : 2 * env.F + 1 ≤ L.length) (hm : ∀ k ∈ L, k < env.N ∧ (k, m) ∈ s) :
    Quorum env H s m := by
  unfold Quorum
  rw [← List.toFinset_card_of_nodup hn] at hl
  refine le_trans hl (Finset.card_le_card fun k hk => ?_)
  rw [List.mem_toFinset] at hk
  exact Finset.mem_filter.2 ⟨Finset.mem_range.2 (hm k hk).1, Or.inr (hm k hk).2⟩

theorem committee_all {env : MEnv} (hN : env.N = 3 * env.F + 1) : Committee env (Finset.range env.N) :=
  ⟨hN, fun _ h => Finset.mem_range.1 h, by rw [Finset.card_range, hN]; omega⟩

section crash
variable {env : MEnv} {full : SMsg → Bytes} (hok : SchemeOk env full) (hN : env.N = 3 * env.F + 1) {input : ℕ → Bytes × Bytes} {evs : List (ℕ × MEvent)} {net : MNet}
    (h : MRun env (Finset.range env.N) ⟨true, true⟩ (MNet.init (Finset.range env.N) input env.N) evs net) (hsrc : ∀ i q m, (i, MEvent.recv q m) ∈ evs → q < env.N)

include hok hN h hsrc

theorem crash_leader {i r l : ℕ} (hi : i < env.N) (hl : ((net.party i).rounds r).leader = some l) : l = leaderOf env (full (.done r)) :=
  leader_full hok ((h.inv i (Finset.mem_range.2 hi)).rounds r) (((h.crash hok (by omega) hsrc).party i (Finset.mem_range.2 hi)).lst r) hl

/-- Without corrupt parties every decision has a second-stage quorum. -/
theorem crash_decided {i r : ℕ} {v : Bytes} (hi : i < env.N) (hd : (net.party i).phase = .decided r v) :
    Quorum env (Finset.range env.N) net.signed (.echo r (leaderOf env (full (.done r))) 2 (env.hash v)) := by
  have hiH := Finset.mem_range.2 hi
  have hcN := h.crash hok (by omega) hsrc
  obtain ⟨-, l, hl, b⟩ := (h.inv i hiH).decided r v hd
  have hll := crash_leader hok hN h hsrc hi hl
  rw [← hll]
  rcases b with ⟨sig, b⟩ | b
  · obtain ⟨l', hl', q⟩ := ((h.inv i hiH).rounds r).vo v sig (Or.inl b)
    rw [hl] at hl'
    cases hl'
    have hc := (hcN.party i hiH).lst r
    obtain ⟨L, n, e, m⟩ := hc.vy
    have hlen := hc.voYes v sig b
    refine quorum_of_list n (by omega) fun k hk => ?_
    obtain ⟨hkN, -, l2, w, hl2, hs⟩ := m k hk
    rw [hl] at hl2
    cases hl2
    have hq := ((h.inv k (Finset.mem_range.2 hkN)).rounds r).second l _ hs
    rw [quorum1_unique (committee_all hN) h q hq]
    exact ⟨hkN, hs⟩
  · exact b

/-- A round with a second-stage quorum for its leader is not left by No votes. -/
theorem crash_no_exit {j r : ℕ} {a sig : Bytes} (hj : j < env.N) (hq : Quorum env (Finset.range env.N) net.signed (.echo r (leaderOf env (full (.done r))) 2 a))
    (hv : ((net.party j).rounds r).voteOut = some (.no sig)) : False := by
  have hcN := h.crash hok (by omega) hsrc
  have hc := (hcN.party j (Finset.mem_range.2 hj)).lst r
  obtain ⟨U, nU, eU, mU⟩ := hc.vn
  have hlenU := hc.voNo sig hv
  have hQU : Quorum env (Finset.range env.N) net.signed (.unlock r) := quorum_of_list nU (by omega) fun k hk => ⟨(mU k hk).1, (mU k hk).2.1⟩
  obtain ⟨u, hu, hus⟩ := hQU.honest (committee_all hN)
  obtain ⟨-, sig', hpv⟩ := ((hcN.party u hu).sig r).sign _ hus rfl
  have hcu := (hcN.party u hu).lst r
  obtain ⟨P, nP, eP, mP⟩ := hcu.pn
  have hlenP := hcu.pvNo sig' hpv
  have hQP : Quorum env (Finset.range env.N) net.signed (.no r) := quorum_of_list nP (by omega) fun k hk => ⟨(mP k hk).1, (mP k hk).2.1⟩
  have h1 : 2 * env.F + 1 ≤ (signers env.N (Finset.range env.N) net.signed (.unlock r)).card := hQU
  have h2 : 2 * env.F + 1 ≤ (signers env.N (Finset.range env.N) net.signed (.no r)).card := hQP
  have h3 : 2 * env.F + 1 ≤ (signers env.N (Finset.range env.N) net.signed (.echo r (leaderOf env (full (.done r))) 2 a)).card := hq
  have i1 := card_inter_lower (signers_sub env.N (Finset.range env.N) net.signed (.echo r (leaderOf env (full (.done r))) 2 a)) (signers_sub env.N (Finset.range env.N) net.signed (.no r))
  have i2 := card_inter_lower (Finset.inter_subset_left.trans (signers_sub env.N (Finset.range env.N) net.signed (.echo r (leaderOf env (full (.done r))) 2 a)) :
    _ ∩ signers env.N (Finset.range env.N) net.signed (.no r) ⊆ _) (signers_sub env.N (Finset.range env.N) net.signed (.unlock r))
  rw [Finset.card_range] at i1 i2
  obtain ⟨k, hk⟩ := Finset.card_pos.1 (show 0 < (signers env.N (Finset.range env.N) net.signed (.echo r (leaderOf env (full (.done r))) 2 a) ∩
    signers env.N (Finset.range env.N) net.signed (.no r) ∩ signers env.N (Finset.range env.N) net.signed (.unlock r)).card by omega)
  simp only [Finset.mem_inter, signers, Finset.mem_filter, Finset.mem_range, not_lt] at hk
  obtain ⟨⟨⟨hkN, k1⟩, -, k2⟩, -, k3⟩ := hk
  have k1 := k1.resolve_left (by omega)
  have k2 := k2.resolve_left (by omega)
  have k3 := k3.resolve_left (by omega)
  have hsg := (hcN.party k (Finset.mem_range.2 hkN)).sig r
  obtain ⟨-, lk, hlk, -, hlock⟩ := hsg.sign _ k2 rfl
  obtain ⟨-, sg, hno⟩ := hsg.sign _ k3 rfl
  have hlk' := crash_leader hok hN h hsrc hkN hlk
  rcases (hsg.sign _ k1 rfl).2 rfl with ⟨-, v, val, hl, -⟩ | ⟨-, -, v, sg', hy, -⟩
  · rw [← hlk', hlock] at hl; cases hl
  · rw [hno] at hy; cases hy

/-- After a round with a second-stage quorum for its leader, every party proposes a value with that hash. -/
theorem crash_locked {r : ℕ} {a : Bytes} (hq : Quorum env (Finset.range env.N) net.signed (.echo r (leaderOf env (full (.done r))) 2 a)) :
    ∀ n j, j < env.N → r + n + 1 ≤ (net.party j).round → env.hash ((net.party j).rounds (r + n + 1)).prop.1 = a := by
  have hcN := h.crash hok (by omega) hsrc
  intro n
  induction n with
  | zero =>
    intro j hj hr
    rcases (hcN.party j (Finset.mem_range.2 hj)).next r (by omega) with ⟨⟨sig, e⟩, -⟩ | ⟨v, sig, e, e'⟩
    · exact (crash_no_exit hok hN h hsrc hj hq e).elim
    · obtain ⟨l, hl, q⟩ := ((h.inv j (Finset.mem_range.2 hj)).rounds r).vo v sig (Or.inr e)
      rw [crash_leader hok hN h hsrc hj hl] at q
      rw [Nat.add_zero, e']
      exact quorum1_unique (committee_all hN) h q (quorum2_quorum1 (committee_all hN) h hq)
  | succ n ih =>
    intro j hj hr
    rcases (hcN.party j (Finset.mem_range.2 hj)).next (r + n + 1) (by omega) with ⟨-, e⟩ | ⟨v, sig, e, e'⟩
    · rw [show r + (n + 1) + 1 = r + n + 1 + 1 from rfl, e]
      exact ih j hj (by omega)
    · obtain ⟨l, hl, q⟩ := ((h.inv j (Finset.mem_range.2 hj)).rounds (r + n + 1)).vo v sig (Or.inr e)
      obtain ⟨k, hk, hks⟩ := q.honest (committee_all hN)
      obtain ⟨w, val, hw, hh⟩ := (((hcN.party k hk).sig (r + n + 1)).sign _ hks rfl).1 rfl
      have hlN : l < env.N := by rw [crash_leader hok hN h hsrc hj hl]; exact leaderOf_lt (by omega) _
      have hp := (((hcN.party l (Finset.mem_range.2 hlN)).sig (r + n + 1)).sent _ hw rfl).2
      rw [show r + (n + 1) + 1 = r + n + 1 + 1 from rfl, e', ← hh, hp]
      exact ih l hlN ((hcN.party l (Finset.mem_range.2 hlN)).past _ hw)

theorem crash_agree_le {i j r r' : ℕ} {v w : Bytes} (hi : i < env.N) (hj : j < env.N) (hdi : (net.party i).phase = .decided r v) (hdj : (net.party j).phase = .decided r' w) (hle : r ≤ r') :
    env.hash v = env.hash w := by
  have hcN := h.crash hok (by omega) hsrc
  have qi := crash_decided hok hN h hsrc hi hdi
  have qj := crash_decided hok hN h hsrc hj hdj
  rcases Nat.eq_or_lt_of_le hle with e | hlt
  · subst e
    exact quorum1_unique (committee_all hN) h (quorum2_quorum1 (committee_all hN) h qi) (quorum2_quorum1 (committee_all hN) h qj)
  · obtain ⟨n, rfl⟩ : ∃ n, r' = r + n + 1 := ⟨r' - r - 1, by omega⟩
    obtain ⟨k, hk, hks⟩ := (quorum2_quorum1 (committee_all hN) h qj).honest (committee_all hN)
    obtain ⟨u, val, hu, hh⟩ := (((hcN.party k hk).sig (r + n + 1)).sign _ hks rfl).1 rfl
    have hlN : leaderOf env (full (.done (r + n + 1))) < env.N := leaderOf_lt (by omega) _
    have hp := (((hcN.party _ (Finset.mem_range.2 hlN)).sig (r + n + 1)).sent _ hu rfl).2
    rw [← hh, hp]
    exact (crash_locked hok hN h hsrc qi n _ hlN ((hcN.party _ (Finset.mem_range.2 hlN)).past _ hu)).symm

end crash

end DyCAPS

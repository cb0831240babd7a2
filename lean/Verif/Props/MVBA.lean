import Verif.Lemmas.MVBAAgree
import Verif.Lemmas.MVBAToy
import Verif.Props.Tbls
import Verif.Props.Bytes

/-!
# C37-C41, C61-C65: the agreement protocol

Executions are `MRun`: the parties in `H` follow the code, the others do anything except forge signatures of parties in `H`. `cfg` says whether the network authenticates the sender
field of messages of honest parties and whether it repeats them. `Committee env H` means `N = 3F+1` and at most `F` corrupt parties.
-/

namespace DyCAPS

/-- Party `i` has returned `v` from `MainProcess`, on evidence from round `r`. -/
def Decides (net : MNet) (i r : ℕ) (v : Bytes) : Prop := (net.party i).phase = .decided r v

instance (net : MNet) (i r : ℕ) (v : Bytes) : Decidable (Decides net i r v) := inferInstanceAs (Decidable (_ = _))

/-! ## The real scheme satisfies the assumptions -/

section
variable {G1 G2 GT : Type} [AddCommGroup G1] [Module Fr G1] [AddCommGroup G2] [Module Fr G2] [AddCommGroup GT] [Module Fr GT] [DecidableEq GT]

/-- The environment with kyber's threshold BLS signatures and keys from `SigKeyGen` with threshold `2F+1`. -/
def kyberEnv (S : KyberSuite G1 G2 GT) (N F : ℕ) (coeffs : List Fr) (hash : Bytes → Bytes) (ID : Bytes) : MEnv where
  N := N
  F := F
  hash := hash
  sign i m := tblsSign S (i, priEval coeffs i) (m.bytes ID)
  share m b := if tblsVerifyPartial S (sigKeyGen S.pp.g2 N coeffs).2 (m.bytes ID) b then shareIndex b else none
  cert m b := blsVerify S (pubCommit (sigKeyGen S.pp.g2 N coeffs).2) (m.bytes ID) b
  recover m sigs := tblsRecover S (sigKeyGen S.pp.g2 N coeffs).2 (m.bytes ID) sigs (2 * F + 1)

/-- kyber's scheme has the properties that the theorems below assume of the signature scheme. -/
theorem kyber_schemeOk (S : KyberSuite G1 G2 GT) (N F : ℕ) (hN : N ≤ 65536) (coeffs : List Fr) (hc : coeffs.length = 2 * F + 1) (hash : Bytes → Bytes) (ID : Bytes) :
    SchemeOk (kyberEnv S N F coeffs hash ID) fun m => S.codec.enc (coeffs.getD 0 0 • S.hm (m.bytes ID)) where
  share_sign i hi m := by
    obtain ⟨sk, h1, h2, h3⟩ := C35_honest_share S N hN coeffs (m.bytes ID) i hi
    have e : sk = (i, priEval coeffs i) := by
      have hi' : i < N := hi
      simp [sigKeyGen, hi'] at h1
      exact h1.symm
    rw [e] at h2 h3
    simp only [kyberEnv]
    rw [if_pos h2]
    exact h3
  cert_full m := (C35_unique S N coeffs _ _).2 (S.codec.dec_enc _)
  recover_full m sigs L h1 h2 h3 := by
    simp only [kyberEnv] at h1 h3 ⊢
    have hl : sigs.length = L.length := by simpa using congrArg List.length h1
    have hlen : (sigs.take (2 * F + 1)).length = 2 * F + 1 := by rw [List.length_take]; omega
    have hv : ∀ s ∈ sigs, tblsVerifyPartial S (sigKeyGen S.pp.g2 N coeffs).2 (m.bytes ID) s = true := by
      intro s hs
      by_contra hne
      have hmem : none ∈ L.map some := by
        rw [← h1]
        exact List.mem_map.2 ⟨s, hs, if_neg hne⟩
      obtain ⟨x, -, hx⟩ := List.mem_map.1 hmem
      cases hx
    have hix : sigs.map shareIndex = L.map some := by
      rw [← h1]
      exact List.map_congr_left fun s hs => (if_pos (hv s hs)).symm
    have hnd : ((sigs.take (2 * F + 1)).map shareIndex).Nodup := by
      rw [List.map_take, hix]
      exact (h2.map (Option.some_injective _)).sublist (List.take_sublist _ _)
    have := (C35_combine S N (2 * F + 1) (by omega) coeffs hc (m.bytes ID) (sigs.take (2 * F + 1)) (sigs.drop (2 * F + 1)) hlen
      (fun s hs => hv s (List.mem_of_mem_take hs)) hnd).1
    rwa [List.take_append_drop] at this

end

/-! ## C61: signed strings -/

/-- Round and instance fit into four bytes, the hash is a SHA3-512 hash. -/
def SMsg.Fits : SMsg → Prop
  | .echo r j stage h => r < 2 ^ 32 ∧ j < 2 ^ 32 ∧ stage < 256 ∧ h.length = 64
  | .done r => r < 2 ^ 32
  | .no r => r < 2 ^ 32
  | .unlock r => r < 2 ^ 32

theorem ofNat_bytes_inj {a b : ℕ} (ha : a < 2 ^ 32) (hb : b < 2 ^ 32) (h : uint32ToBytes (UInt32.ofNat a) = uint32ToBytes (UInt32.ofNat b)) : a = b := by
  have := congrArg UInt32.toNat (C01_injective _ _ h)
  simp only [UInt32.toNat_ofNat'] at this
  omega

theorem idRound_inj {ID ID' : Bytes} {r r' : ℕ} (hr : r < 2 ^ 32) (hr' : r' < 2 ^ 32) (h : idRound ID r = idRound ID' r') : ID = ID' ∧ r = r' := by
  obtain ⟨a, b⟩ := List.append_inj' h rfl
  exact ⟨a, ofNat_bytes_inj hr hr' b⟩

/-- **C61.** Strings signed for different purposes, instances, rounds, broadcasts, stages or values are different byte strings, also across agreement instances whatever the
instance identifiers are. -/
theorem C61_domain_separation (ID ID' : Bytes) (m m' : SMsg) (hm : m.Fits) (hm' : m'.Fits) (h : m.bytes ID = m'.bytes ID') : ID = ID' ∧ m = m' := by
  cases m with
  | echo r j stage x =>
    cases m' with
    | echo r' j' stage' x' =>
      obtain ⟨h1, h2, h3, h4⟩ := hm
      obtain ⟨h1', h2', h3', h4'⟩ := hm'
      obtain ⟨a, b⟩ := List.append_inj' h (h4.trans h4'.symm)
      obtain ⟨a, c⟩ := List.append_inj' a rfl
      obtain ⟨-, a⟩ := List.append_inj a rfl
      obtain ⟨a, d⟩ := List.append_inj' a rfl
      obtain ⟨e, f⟩ := idRound_inj h1 h1' a
      have hst : stage = stage' := by
        have := congrArg UInt8.toNat (List.cons.inj c).1
        simpa [Nat.mod_eq_of_lt h3, Nat.mod_eq_of_lt h3'] using this
      exact ⟨e, by rw [f, ofNat_bytes_inj h2 h2' d, hst, b]⟩
    | done r' => exact absurd (List.cons.inj h).1 (by decide)
    | no r' => exact absurd (List.cons.inj h).1 (by decide)
    | unlock r' => exact absurd (List.cons.inj h).1 (by decide)
  | done r =>
    cases m' with
    | echo r' j' stage' x' => exact absurd (List.cons.inj h).1 (by decide)
    | done r' =>
      obtain ⟨a, b⟩ := idRound_inj hm hm' (List.append_inj h rfl).2
      exact ⟨a, by rw [b]⟩
    | no r' => exact absurd (List.cons.inj h).1 (by decide)
    | unlock r' => exact absurd (List.cons.inj h).1 (by decide)
  | no r =>
    cases m' with
    | echo r' j' stage' x' => exact absurd (List.cons.inj h).1 (by decide)
    | done r' => exact absurd (List.cons.inj h).1 (by decide)
    | no r' =>
      obtain ⟨a, b⟩ := idRound_inj hm hm' (List.append_inj h rfl).2
      exact ⟨a, by rw [b]⟩
    | unlock r' => exact absurd (List.cons.inj h).1 (by decide)
  | unlock r =>
    cases m' with
    | echo r' j' stage' x' => exact absurd (List.cons.inj h).1 (by decide)
    | done r' => exact absurd (List.cons.inj h).1 (by decide)
    | no r' => exact absurd (List.cons.inj h).1 (by decide)
    | unlock r' =>
      obtain ⟨a, b⟩ := idRound_inj hm hm' (List.append_inj h rfl).2
      exact ⟨a, by rw [b]⟩

theorem digitChar_byte (n : ℕ) (h : n < 10) : UInt8.ofNat (Nat.digitChar n).toNat = UInt8.ofNat (48 + n) := by
  interval_cases n <;> rfl

theorem toDigitsCore_byte (fuel n : ℕ) (ds : List Char) (hds : ∀ c ∈ ds, ∃ d < 10, UInt8.ofNat c.toNat = UInt8.ofNat (48 + d)) :
    ∀ c ∈ Nat.toDigitsCore 10 fuel n ds, ∃ d < 10, UInt8.ofNat c.toNat = UInt8.ofNat (48 + d) := by
  induction fuel generalizing n ds with
  | zero => simpa [Nat.toDigitsCore] using hds
  | succ fuel ih =>
    have hcons : ∀ c ∈ Nat.digitChar (n % 10) :: ds, ∃ d < 10, UInt8.ofNat c.toNat = UInt8.ofNat (48 + d) := by
      intro c hc
      rcases List.mem_cons.1 hc with rfl | hc
      · exact ⟨n % 10, Nat.mod_lt _ (by norm_num), digitChar_byte _ (Nat.mod_lt _ (by norm_num))⟩
      · exact hds c hc
    rw [Nat.toDigitsCore]
    split
    · exact hcons
    · exact ih _ _ hcons

/-- **C61.** Nor do they coincide with the strings signed in the reconstruction of commitments (a party number in decimal). -/
theorem C61_votes_apart (ID : Bytes) (m : SMsg) (k : ℕ) : m.bytes ID ≠ decimalBytes k := by
  intro h
  have hd : ∀ b ∈ m.bytes ID, ∃ d < 10, b = UInt8.ofNat (48 + d) := by
    rw [h]
    intro b hb
    obtain ⟨c, hc, rfl⟩ := List.mem_map.1 hb
    exact toDigitsCore_byte _ _ _ (by simp) c hc
  have key : ∀ x : UInt8, x ∈ [(69 : UInt8), 68, 0, 85] → ¬ ∃ d < 10, x = UInt8.ofNat (48 + d) := by
    rintro x hx ⟨d, hd, e⟩
    interval_cases d <;> subst e <;> revert hx <;> decide
  cases m with
  | echo r j stage x => exact key 69 (by decide) (hd 69 (by simp [SMsg.bytes]))
  | done r => exact key 68 (by decide) (hd 68 (by simp [SMsg.bytes]))
  | no r => exact key 0 (by decide) (hd 0 (by simp [SMsg.bytes]))
  | unlock r => exact key 85 (by decide) (hd 85 (by simp [SMsg.bytes]))

/-- The stage byte and the instance are kept apart although they are adjacent. -/
example : (SMsg.echo 0 1 2 []).bytes [7] = [69, 99, 104, 111, 7, 0, 0, 0, 0, 0, 0, 0, 1, 2] := by decide

/-! ## C37: certificates -/

/-- **C37.** Two certificates for the same broadcast instance and stage, by whomever they were put together (as long as no honest signature is forged), certify the same hash. -/
theorem C37_certificates_unique {env : MEnv} {H : Finset ℕ} (hc : Committee env H) {cfg : MNetCfg} {input : ℕ → Bytes × Bytes} {evs : List (ℕ × MEvent)} {net : MNet}
    (h : MRun env H cfg (MNet.init H input env.N) evs net) {r j stage : ℕ} (hstage : stage = 1 ∨ stage = 2) {a b σ τ : Bytes}
    (hσ : Genuine env H net.signed σ) (hτ : Genuine env H net.signed τ) (ha : env.cert (.echo r j stage a) σ = true) (hb : env.cert (.echo r j stage b) τ = true) : a = b := by
  have qa := (hσ _).2 ha
  have qb := (hτ _).2 hb
  rcases hstage with rfl | rfl
  · exact quorum1_unique hc h qa qb
  · exact quorum1_unique hc h (quorum2_quorum1 hc h qa) (quorum2_quorum1 hc h qb)

/-- **C37.** The certificates of the two stages of one broadcast agree as well. -/
theorem C37_stages_agree {env : MEnv} {H : Finset ℕ} (hc : Committee env H) {cfg : MNetCfg} {input : ℕ → Bytes × Bytes} {evs : List (ℕ × MEvent)} {net : MNet}
    (h : MRun env H cfg (MNet.init H input env.N) evs net) {r j : ℕ} {a b σ τ : Bytes}
    (hσ : Genuine env H net.signed σ) (hτ : Genuine env H net.signed τ) (ha : env.cert (.echo r j 1 a) σ = true) (hb : env.cert (.echo r j 2 b) τ = true) : a = b :=
  quorum1_unique hc h ((hσ _).2 ha) (quorum2_quorum1 hc h ((hτ _).2 hb))

/-! ## C38: decisions of one round -/

/-- **C38 (the part that holds).** Parties that decide in the same round with the same leader decide values with the same hash. -/
theorem C38_same_leader_partial {env : MEnv} {H : Finset ℕ} (hc : Committee env H) {cfg : MNetCfg} {input : ℕ → Bytes × Bytes} {evs : List (ℕ × MEvent)} {net : MNet}
    (h : MRun env H cfg (MNet.init H input env.N) evs net) {i j r : ℕ} {v w : Bytes} (hi : i ∈ H) (hj : j ∈ H) (hv : Decides net i r v) (hw : Decides net j r w)
    (hl : ((net.party i).rounds r).leader = ((net.party j).rounds r).leader) : env.hash v = env.hash w := by
  obtain ⟨-, l, a, qa⟩ := decided_quorum hc h hi hv
  obtain ⟨-, l', b, qb⟩ := decided_quorum hc h hj hw
  rw [hl, b] at a
  cases a
  exact quorum1_unique hc h qa qb

/-- The signers of the coin shares that a party has counted in a round. -/
def coinSigners (env : MEnv) (net : MNet) (i r : ℕ) : List (Option ℕ) := ((net.party i).rounds r).coins.map (env.share (.done r))

/-- **C63 (the part that holds).** A party that has counted coin shares of different parties gets the leader given by the one combined signature on the coin name. -/
theorem C63_leader_partial {env : MEnv} {full : SMsg → Bytes} (hok : SchemeOk env full) {H : Finset ℕ} {cfg : MNetCfg} {input : ℕ → Bytes × Bytes} {evs : List (ℕ × MEvent)} {net : MNet}
    (h : MRun env H cfg (MNet.init H input env.N) evs net) {i r l : ℕ} (hi : i ∈ H) (hl : ((net.party i).rounds r).leader = some l) (hd : (coinSigners env net i r).Nodup) :
    l = leaderOf env (full (.done r)) := by
  have hR := (h.inv i hi).rounds r
  obtain ⟨hlen, e⟩ := hR.lead l hl
  have hex : coinSigners env net i r = (((net.party i).rounds r).coins.map fun s => (env.share (.done r) s).getD 0).map some := by
    unfold coinSigners
    rw [List.map_map]
    refine List.map_congr_left fun s hs => ?_
    have := hR.valid s hs
    obtain ⟨x, hx⟩ := Option.isSome_iff_exists.1 this
    simp [hx]
  rw [hok.recover_full _ _ _ hex ?_ (by rw [List.length_map]; omega)] at e
  · exact e
  · rw [hex] at hd
    exact List.Nodup.of_map _ hd

/-- **C38 (the part that holds).** If both have counted coin shares of different parties, their decisions in a round agree. -/
theorem C38_distinct_coins_partial {env : MEnv} {full : SMsg → Bytes} (hok : SchemeOk env full) {H : Finset ℕ} (hc : Committee env H) {cfg : MNetCfg} {input : ℕ → Bytes × Bytes}
    {evs : List (ℕ × MEvent)} {net : MNet} (h : MRun env H cfg (MNet.init H input env.N) evs net) {i j r : ℕ} {v w : Bytes} (hi : i ∈ H) (hj : j ∈ H)
    (hv : Decides net i r v) (hw : Decides net j r w) (hci : (coinSigners env net i r).Nodup) (hcj : (coinSigners env net j r).Nodup) : env.hash v = env.hash w := by
  obtain ⟨-, l, a, -⟩ := decided_quorum hc h hi hv
  obtain ⟨-, l', b, -⟩ := decided_quorum hc h hj hw
  refine C38_same_leader_partial hc h hi hj hv hw ?_
  rw [a, b, C63_leader_partial hok h hi a hci, C63_leader_partial hok h hj b hcj]

/-! ## C39: decisions of different rounds -/

/-- **C39 (the part that holds).** If no party is corrupt (they may stop at any time, messages may be lost, delayed and reordered, but not repeated), then all decisions, whatever the
rounds, have the same hash. -/
theorem C39_crash_partial {env : MEnv} {full : SMsg → Bytes} (hok : SchemeOk env full) (hN : env.N = 3 * env.F + 1) {input : ℕ → Bytes × Bytes} {evs : List (ℕ × MEvent)} {net : MNet}
    (h : MRun env (Finset.range env.N) ⟨true, true⟩ (MNet.init (Finset.range env.N) input env.N) evs net) (hsrc : ∀ i q m, (i, MEvent.recv q m) ∈ evs → q < env.N)
    {i j r r' : ℕ} {v w : Bytes} (hi : i < env.N) (hj : j < env.N) (hv : Decides net i r v) (hw : Decides net j r' w) : env.hash v = env.hash w := by
  rcases Nat.le_total r r' with hle | hle
  · exact crash_agree_le hok hN h hsrc hi hj hv hw hle
  · exact (crash_agree_le hok hN h hsrc hj hi hw hv hle).symm

/-- **C64 (the part that holds).** If no party is corrupt, then what is certified in party `j`'s broadcast is the hash of `j`'s proposal of that round. -/
theorem C64_own_value_partial {env : MEnv} {full : SMsg → Bytes} (hok : SchemeOk env full) (hN : env.N = 3 * env.F + 1) {input : ℕ → Bytes × Bytes} {evs : List (ℕ × MEvent)} {net : MNet}
    (h : MRun env (Finset.range env.N) ⟨true, true⟩ (MNet.init (Finset.range env.N) input env.N) evs net) (hsrc : ∀ i q m, (i, MEvent.recv q m) ∈ evs → q < env.N)
    {r j : ℕ} (hj : j < env.N) {a σ : Bytes} (hσ : Genuine env (Finset.range env.N) net.signed σ) (hc : env.cert (.echo r j 1 a) σ = true) :
    a = env.hash ((net.party j).rounds r).prop.1 := by
  have hcN := h.crash hok (by omega) hsrc
  obtain ⟨k, hk, hks⟩ := ((hσ _).2 hc).honest (committee_all hN)
  obtain ⟨w, val, hw, hh⟩ := (((hcN.party k hk).sig r).sign _ hks rfl).1 rfl
  have hp := (((hcN.party j (Finset.mem_range.2 hj)).sig r).sent _ hw rfl).2
  rw [← hh, hp]

/-! ## C40: votes -/

/-- A vote message: `(yes, value, signature, share)`. -/
abbrev VoteMsg := Bool × Bytes × Bytes × Bytes

/-- The vote carries the certificate and the share that the sMVBA protocol demands: for Yes a first-stage certificate of the leader's value and a share for the second stage, for No a
certificate of the No prevotes and a share of the unlock string. -/
def VoteValid (env : MEnv) (r l : ℕ) (m : VoteMsg) : Prop :=
  (m.1 = true ∧ env.cert (.echo r l 1 (env.hash m.2.1)) m.2.2.1 = true ∧ (env.share (.echo r l 2 (env.hash m.2.1)) m.2.2.2).isSome) ∨
  (m.1 = false ∧ env.cert (.no r) m.2.2.1 = true ∧ (env.share (.unlock r) m.2.2.2).isSome)

/-- Who has signed the share of a vote. -/
def voter (env : MEnv) (r l : ℕ) (m : VoteMsg) : Option ℕ := if m.1 then env.share (.echo r l 2 (env.hash m.2.1)) m.2.2.2 else env.share (.unlock r) m.2.2.2

/-- The Vote handler takes the messages one after the other. -/
def voteAll (env : MEnv) (r : ℕ) (st : MState) (ms : List VoteMsg) : Option MState :=
  ms.foldlM (fun st m => (onVote env st r m.1 m.2.1 m.2.2.1 m.2.2.2).map (·.st)) st

theorem voteAll_spec {env : MEnv} {r l : ℕ} {st : MState} (hr : r ≤ st.round) (hl : (st.rounds r).leader = some l) (h1 : (st.rounds r).VYr = []) (h2 : (st.rounds r).VNr = [])
    (h3 : (st.rounds r).voteOut = none) (ms : List VoteMsg) (hv : ∀ m ∈ ms, VoteValid env r l m) :
    ∃ st', voteAll env r st ms = some st' ∧ r ≤ st'.round ∧ (st'.rounds r).leader = some l ∧ (st'.rounds r).VYr.length = (ms.filter fun m => m.1).length ∧
      (st'.rounds r).VNr.length = (ms.filter fun m => !m.1).length ∧
      ((st'.rounds r).voteOut.isSome ↔ 2 * env.F + 1 ≤ (ms.filter fun m => !m.1).length ∨ ∃ pre m post, ms = pre ++ m :: post ∧ m.1 = true ∧ 2 * env.F + 1 ≤ pre.length + 1) := by
  induction ms using List.reverseRecOn with
  | nil => exact ⟨st, rfl, hr, hl, by simp [h1], by simp [h2], by simp [h3]⟩
  | append_singleton ms m ih =>
    obtain ⟨st', e, hr', hl', hy, hn, ho⟩ := ih fun x hx => hv x (List.mem_append_left _ hx)
    have hm := hv m (by simp)
    have hlen : (ms.filter fun m => m.1).length + (ms.filter fun m => !m.1).length = ms.length := by
      rw [← List.countP_eq_length_filter, ← List.countP_eq_length_filter]
      have := List.length_eq_countP_add_countP (fun m : VoteMsg => m.1) (l := ms)
      simp only [Bool.not_eq_true, Bool.decide_eq_false] at this
      omega
    have hstep : voteAll env r st (ms ++ [m]) = (onVote env st' r m.1 m.2.1 m.2.2.1 m.2.2.2).map (·.st) := by
      unfold voteAll at e ⊢
      rw [List.foldlM_append, e]
      simp [List.foldlM]
    rw [hstep]
    unfold onVote
    simp only
    rw [hl']
    simp only
    rw [if_pos hr']
    have hsplit : (∃ pre m' post, ms ++ [m] = pre ++ m' :: post ∧ m'.1 = true ∧ 2 * env.F + 1 ≤ pre.length + 1) ↔
        (∃ pre m' post, ms = pre ++ m' :: post ∧ m'.1 = true ∧ 2 * env.F + 1 ≤ pre.length + 1) ∨ (m.1 = true ∧ 2 * env.F + 1 ≤ ms.length + 1) := by
      constructor
      · rintro ⟨pre, m', post, he, hb, hp⟩
        rcases List.eq_nil_or_concat post with rfl | ⟨post', z, rfl⟩
        · obtain ⟨rfl, h'⟩ := List.append_inj' he rfl
          cases h'
          exact Or.inr ⟨hb, hp⟩
        · have he' : ms ++ [m] = (pre ++ m' :: post') ++ [z] := by rw [he]; simp
          obtain ⟨rfl, -⟩ := List.append_inj' he' rfl
          exact Or.inl ⟨pre, m', post', rfl, hb, hp⟩
      · rintro (⟨pre, m', post, rfl, hb, hp⟩ | ⟨hb, hp⟩)
        · exact ⟨pre, m', post ++ [m], by simp, hb, hp⟩
        · exact ⟨ms, m, [], rfl, hb, hp⟩
    rcases hm with ⟨hb, hc, hs⟩ | ⟨hb, hc, hs⟩
    · rw [if_pos hb, if_pos (by rw [hc, hs]; rfl)]
      refine ⟨_, rfl, hr', by simpa using hl', ?_, ?_, ?_⟩
      · simp [List.filter_append, hb, hy]
      · simp [List.filter_append, hb, hn]
      · rw [hsplit, List.filter_append, List.length_append]
        simp only [setRound_rounds, if_true, List.length_append, List.length_singleton, hb, Bool.not_true]
        have hz : (List.filter (fun m : VoteMsg => !m.1) [m]).length = 0 := by simp [hb]
        simp only [hz, true_and, Nat.add_zero, ← or_assoc]
        rw [← ho]
        split
        · rename_i hgt
          have : 2 * env.F + 1 ≤ ms.length + 1 := by omega
          cases hvo : (st'.rounds r).voteOut <;> simp [this]
        · split
          · rename_i hgt
            have : 2 * env.F + 1 ≤ ms.length + 1 := by omega
            cases hvo : (st'.rounds r).voteOut <;> simp [this]
          · rename_i hng
            have : ¬ 2 * env.F + 1 ≤ ms.length + 1 := by omega
            simp [this]
    · rw [if_neg (by simp [hb]), if_pos (by rw [hc, hs]; rfl)]
      refine ⟨_, rfl, hr', by simpa using hl', ?_, ?_, ?_⟩
      · simp [List.filter_append, hb, hy]
      · simp [List.filter_append, hb, hn]
      · rw [hsplit, List.filter_append, List.length_append]
        simp only [setRound_rounds, if_true, List.length_append, List.length_singleton, hb]
        rw [show (List.filter (fun m : VoteMsg => !m.1) [m]).length = 1 by simp [hb]]
        simp only [Bool.false_eq_true, false_and, or_false]
        split
        · rename_i hgt
          have : 2 * env.F + 1 ≤ (ms.filter fun m => !m.1).length + 1 := by omega
          cases hvo : (st'.rounds r).voteOut <;> simp [this]
        · rename_i hng
          have h4 : ¬ 2 * env.F + 1 ≤ (ms.filter fun m => !m.1).length + 1 := by omega
          have h5 : ¬ 2 * env.F + 1 ≤ (ms.filter fun m => !m.1).length := by omega
          rw [ho]
          simp [h4, h5]

/-- **C40 (the part that holds: exactly when the handler releases the main process).** Valid votes in the given order release it exactly if there are `2F+1` No votes or some Yes vote is the
`(2F+1)`-st or a later one. -/
theorem C40_released_iff_partial {env : MEnv} {r l : ℕ} {st : MState} (hr : r ≤ st.round) (hl : (st.rounds r).leader = some l) (h1 : (st.rounds r).VYr = []) (h2 : (st.rounds r).VNr = [])
    (h3 : (st.rounds r).voteOut = none) (ms : List VoteMsg) (hv : ∀ m ∈ ms, VoteValid env r l m) :
    ∃ st', voteAll env r st ms = some st' ∧ ((st'.rounds r).voteOut.isSome ↔
      2 * env.F + 1 ≤ (ms.filter fun m => !m.1).length ∨ ∃ pre m post, ms = pre ++ m :: post ∧ m.1 = true ∧ 2 * env.F + 1 ≤ pre.length + 1) := by
  obtain ⟨st', a, -, -, -, -, b⟩ := voteAll_spec hr hl h1 h2 h3 ms hv
  exact ⟨st', a, b⟩

/-- **C40 is refuted.** In every committee with `F ≥ 1` there are `2F+1` valid votes of `2F+1` different parties after which the handler has released nothing: the first is Yes, the others No. -/
theorem C40_refuted {env : MEnv} {full : SMsg → Bytes} (hok : SchemeOk env full) (hN : 2 * env.F + 1 ≤ env.N) (hF : 1 ≤ env.F) {r l : ℕ} {st : MState} (hr : r ≤ st.round)
    (hl : (st.rounds r).leader = some l) (h1 : (st.rounds r).VYr = []) (h2 : (st.rounds r).VNr = []) (h3 : (st.rounds r).voteOut = none) (v : Bytes) :
    ∃ ms : List VoteMsg, (∀ m ∈ ms, VoteValid env r l m) ∧ ms.map (voter env r l) = (List.range (2 * env.F + 1)).map some ∧
      ∃ st', voteAll env r st ms = some st' ∧ (st'.rounds r).voteOut = none := by
  set f : ℕ → VoteMsg := fun i => if i = 0 then (true, v, full (.echo r l 1 (env.hash v)), env.sign i (.echo r l 2 (env.hash v)))
    else (false, [], full (.no r), env.sign i (.unlock r)) with hf
  have hval : ∀ m ∈ (List.range (2 * env.F + 1)).map f, VoteValid env r l m := by
    intro m hm
    obtain ⟨i, hi, rfl⟩ := List.mem_map.1 hm
    have hi' : i < env.N := by have := List.mem_range.1 hi; omega
    rw [hf]
    by_cases h0 : i = 0
    · left
      simp only [h0, if_true]
      rw [h0] at hi'
      exact ⟨trivial, hok.cert_full _, by rw [hok.share_sign 0 hi' _]; rfl⟩
    · right
      simp only [h0, if_false]
      exact ⟨trivial, hok.cert_full _, by rw [hok.share_sign i hi' _]; rfl⟩
  refine ⟨(List.range (2 * env.F + 1)).map f, hval, ?_, ?_⟩
  · rw [List.map_map]
    refine List.map_congr_left fun i hi => ?_
    have hi' : i < env.N := by have := List.mem_range.1 hi; omega
    by_cases h0 : i = 0
    · rw [h0] at hi'
      simp [voter, hf, h0, hok.share_sign 0 hi']
    · simp [voter, hf, h0, hok.share_sign i hi']
  · obtain ⟨st', a, b⟩ := C40_released_iff_partial hr hl h1 h2 h3 _ hval
    refine ⟨st', a, ?_⟩
    rw [← Option.not_isSome_iff_eq_none, b]
    have hrange : List.range (2 * env.F + 1) = 0 :: (List.range (2 * env.F)).map Nat.succ := List.range_succ_eq_map
    rintro (hc | ⟨pre, m, post, e, hm, hlen⟩)
    · rw [hrange] at hc
      have hle := List.length_filter_le (fun m : VoteMsg => !m.1) (((List.range (2 * env.F)).map Nat.succ).map f)
      rw [List.map_cons, List.filter_cons_of_neg (by simp [hf])] at hc
      simp only [List.length_map, List.length_range] at hle
      omega
    · have hl1 : pre.length < (List.range (2 * env.F + 1)).length := by
        have := congrArg List.length e
        simp only [List.length_map, List.length_append, List.length_cons] at this
        omega
      have hget : ((List.range (2 * env.F + 1)).map f)[pre.length]? = some m := by rw [e]; simp
      rw [List.getElem?_map, List.getElem?_eq_getElem hl1, List.getElem_range] at hget
      simp only [Option.map_some, Option.some.injEq] at hget
      rw [← hget, hf] at hm
      simp only at hm
      rw [if_neg (by omega)] at hm
      cases hm

/-! ## C41: messages that end the process -/

/-- A message that ends the process that handles it: a second-stage Value with a validation that does not verify (`log.Fatalln` in `Receiver`), or a Finish with a sender number that is not a
party's (index out of range). -/
def Deadly (env : MEnv) (st : MState) : MEvent → Prop
  | .recv _ (.value r j stage v val) => r ≤ st.round ∧ j < env.N ∧ (st.rounds r).recv j = .second ∧ stage = 2 ∧ env.cert (.echo r j 1 (env.hash v)) val = false
  | .recv s (.finish r _ _) => r ≤ st.round ∧ env.N ≤ s
  | _ => False

/-- **C41 (the part that holds).** No other message and no other step ends a running process. -/
theorem C41_only_deadly_partial (env : MEnv) (i : ℕ) (st : MState) (hd : st.dead = false) (ev : MEvent) (o : MOut) (ho : mvbaStep env i st ev = some o) : o.st.dead = true ↔ Deadly env st ev := by
  unfold mvbaStep at ho
  rw [if_neg (by simp [hd])] at ho
  split at ho
  · rename_i r j stage v val
    obtain ⟨o', ho', rfl⟩ := Option.map_eq_some_iff.1 ho
    unfold onValue at ho'
    simp only at ho'
    split at ho'
    · rename_i hr
      split at ho'
      · rename_i hp
        cases ho'
        simp [Deadly, hp, hd]
      · rename_i hp
        split at ho'
        · rename_i hc
          cases ho'
          simp [Deadly, hc, hd]
        · rename_i hc
          cases ho'
          simp [Deadly, hr, hp, hc]
      · cases ho'
    · cases ho'
  · unfold onEchoShare at ho
    simp only at ho
    split at ho
    · split at ho
      · split at ho
        · split at ho <;> cases ho <;> simp [Deadly, hd]
        · cases ho; simp [Deadly, hd]
      · split at ho
        · split at ho <;> cases ho <;> simp [Deadly, hd]
        · cases ho; simp [Deadly, hd]
      · cases ho
    · cases ho
  · unfold onFinish at ho
    simp only at ho
    split at ho
    · rename_i hr
      split at ho
      · rename_i hs
        split at ho <;> cases ho <;> simp [Deadly, hd] <;> omega
      · rename_i hs
        cases ho
        simp only [Deadly, true_iff]
        exact ⟨hr, Nat.le_of_not_lt hs⟩
    · cases ho
  · unfold onDone at ho
    simp only at ho
    split at ho
    · split at ho <;> cases ho <;> simp [Deadly, hd]
    · cases ho
  · unfold onHalt at ho
    simp only at ho
    split at ho
    · cases ho
    · split at ho
      · split at ho
        · split at ho
          · cases ho
          · cases ho; simp [Deadly, hd]
        · cases ho; simp [Deadly, hd]
      · cases ho
  · unfold onPreVote at ho
    simp only at ho
    split at ho
    · cases ho
    · split at ho
      · split at ho
        · split at ho <;> cases ho <;> simp [Deadly, hd]
        · split at ho <;> cases ho <;> simp [Deadly, hd]
      · cases ho
  · unfold onVote at ho
    simp only at ho
    split at ho
    · cases ho
    · split at ho
      · split at ho
        · split at ho <;> cases ho <;> simp [Deadly, hd]
        · split at ho <;> cases ho <;> simp [Deadly, hd]
      · cases ho
  · simp only at ho
    split at ho
    · split at ho
      · cases ho; simp [Deadly, hd]
      · cases ho; simp [Deadly, hd]
      · cases ho
    · cases ho
  · simp only at ho
    split at ho
    · cases ho; simp [Deadly, hd]
    · cases ho
  · simp only at ho
    split at ho
    · cases ho; simp [Deadly, hd]
    · cases ho
  · split at ho
    · cases ho; simp [Deadly, hd]
    · cases ho
  · unfold onJoined at ho
    simp only at ho
    split at ho
    · split at ho
      · split at ho
        · cases ho; simp [Deadly, hd]
        · split at ho <;> cases ho <;> simp [Deadly, hd]
      · cases ho
    · cases ho
  · unfold onSendVote at ho
    simp only at ho
    split at ho
    · split at ho
      · cases ho; simp [Deadly, hd]
      · cases ho; simp [Deadly, hd]
      · cases ho
    · cases ho
  · split at ho
    · cases ho; simp [Deadly, hd]
    · cases ho; simp [Deadly, hd]
    · cases ho
  · unfold onTakeVote at ho
    simp only at ho
    split at ho
    · split at ho
      · cases ho
      · cases ho; simp [Deadly, hd]
      · cases ho; simp [Deadly, hd, startRound]
      · cases ho; simp [Deadly, hd, startRound]
    · cases ho

/-- **C41 is refuted.** In any network state, two messages of a corrupt party `c` with arbitrary contents end an honest process that has not yet received anything in the broadcast of party `j`:
the first is taken as the first-stage Value, the second fails the validation. `g` is any byte string that is no signature. Afterwards the party makes no step. -/
theorem C41_refuted {env : MEnv} {H : Finset ℕ} {cfg : MNetCfg} {net₀ net : MNet} {evs : List (ℕ × MEvent)} (h : MRun env H cfg net₀ evs net) {i c j : ℕ} (hi : i ∈ H) (hc : c ∉ H)
    (hj : j < env.N) (hd : (net.party i).dead = false) (hrecv : ((net.party i).rounds (net.party i).round).recv j = .first) (v g : Bytes)
    (hg : ∀ m, env.share m g = none ∧ env.cert m g = false) :
    ∃ net', MRun env H cfg net₀ (evs ++ [(i, .recv c (.value (net.party i).round j 1 v g))] ++ [(i, .recv c (.value (net.party i).round j 2 v g))]) net' ∧
      (net'.party i).dead = true ∧ ∀ ev, mvbaStep env i (net'.party i) ev = none := by
  set r := (net.party i).round with hrdef
  have hgen : ∀ s, Genuine env H s g := fun s m => ⟨fun k hk => (by rw [(hg m).1] at hk; cases hk), fun hk => (by rw [(hg m).2] at hk; cases hk)⟩
  have hall : ∀ net : MNet, ∀ stage, MAllowed env H cfg net i (.recv c (.value r j stage v g)) := fun net stage =>
    ⟨by intro b hb; simp only [MMsg.sigs, List.mem_singleton] at hb; rw [hb]; exact hgen _, fun _ hH => absurd hH hc, fun _ hH => absurd hH hc⟩
  obtain ⟨n1, hn1, hp1⟩ : ∃ n1, net.at_ env i (.recv c (.value r j 1 v g)) = some n1 ∧
      n1.party i = (net.party i).setRound r { (net.party i).rounds r with recv := fun j' => if j' = j then .second else ((net.party i).rounds r).recv j' } := by
    unfold MNet.at_ mvbaStep onValue
    simp only [hd, Bool.false_eq_true, if_false, hrecv]
    rw [if_pos ⟨le_of_eq hrdef, hj⟩]
    exact ⟨_, rfl, by simp⟩
  have run1 := h.snoc hi (hall net 1) hn1
  obtain ⟨n2, hn2, hp2⟩ : ∃ n2, ({ n1 with delivered := n1.delivered ++ logDelivery i (.recv c (.value r j 1 v g)) } : MNet).at_ env i (.recv c (.value r j 2 v g)) = some n2 ∧
      (n2.party i).dead = true := by
    unfold MNet.at_ mvbaStep onValue
    simp only [hp1, setRound_dead, hd, Bool.false_eq_true, if_false, setRound_round, setRound_rounds, if_true, (hg _).2]
    rw [if_pos ⟨le_of_eq hrdef, hj⟩]
    exact ⟨_, rfl, by simp⟩
  refine ⟨_, run1.snoc hi (hall _ 2) hn2, hp2, fun ev => ?_⟩
  have : (n2.party i).dead = true := hp2
  unfold mvbaStep
  rw [if_pos]
  exact this

/-! ## C62: what the sender of a provable broadcast sends -/

/-- **C62 (the part that holds).** If the counted shares are of different parties, then the certificate that a sender puts into the second-stage Value or the Finish message is valid. -/
theorem C62_certificate_partial {env : MEnv} {full : SMsg → Bytes} (hok : SchemeOk env full) {i r : ℕ} {st : MState} {stage : ℕ} {sh : Bytes} {o : MOut} {sigs : List Bytes}
    (hs : (stage = 1 ∧ (st.rounds r).send = .first sigs) ∨ (stage = 2 ∧ (st.rounds r).send = .second sigs)) (ho : onEchoShare env i st r i stage sh = some o) (L : List ℕ) (hL : L.Nodup)
    (hsig : (sigs ++ [sh]).map (env.share (.echo r i stage (env.hash (st.rounds r).prop.1))) = L.map some) :
    ∀ m ∈ o.msgs, ∃ sig, (m = .value r i 2 (st.rounds r).prop.1 sig ∨ m = .finish r (st.rounds r).prop.1 sig) ∧ env.cert (.echo r i stage (env.hash (st.rounds r).prop.1)) sig = true := by
  have hlen : (sigs ++ [sh]).length = L.length := by simpa using congrArg List.length hsig
  unfold onEchoShare at ho
  simp only at ho
  split at ho
  · rcases hs with ⟨rfl, hs⟩ | ⟨rfl, hs⟩
    · rw [hs] at ho
      simp only at ho
      split at ho
      · split at ho
        · cases ho
          intro m hm
          rw [List.mem_singleton] at hm
          rw [hok.recover_full _ _ L hsig hL (by omega)] at hm
          exact ⟨_, Or.inl hm, hok.cert_full _⟩
        · cases ho; simp
      · cases ho; simp
    · rw [hs] at ho
      simp only at ho
      split at ho
      · split at ho
        · cases ho
          intro m hm
          rw [List.mem_singleton] at hm
          rw [hok.recover_full _ _ L hsig hL (by omega)] at hm
          exact ⟨_, Or.inr hm, hok.cert_full _⟩
        · cases ho; simp
      · cases ho; simp
  · cases ho

/-! ## Concrete executions: four parties, one corrupt, authenticated network without repetition of honest messages -/

namespace Toy

def rv (i s : ℕ) (m : MMsg) : ℕ × MEvent := (i, .recv s m)

/-- Party `c`'s share of the coin arrives three times at party `i`. -/
def coins (i c r : ℕ) : List (ℕ × MEvent) := List.replicate 3 (rv i c (.done r (sign c (.done r))))

/-- The broadcasts `js` of party `i` notice that they are cancelled. -/
def quits (i : ℕ) (js : List ℕ) : List (ℕ × MEvent) := js.map fun j => (i, .quitRecv j)

/-- Party `j`'s broadcast of `v` in round `r` runs to its end; `js` take part, the corrupt `cs` contribute shares. -/
def broadcast (coin : ℕ → UInt8) (r j : ℕ) (v val : Bytes) (js cs : List ℕ) : List (ℕ × MEvent) :=
  (js.flatMap fun i => [rv i j (.value r j 1 v val), rv j i (.echo r j 1 (sign i (.echo r j 1 v)))]) ++ (cs.map fun i => rv j i (.echo r j 1 (sign i (.echo r j 1 v))))
  ++ (js.flatMap fun i => [rv i j (.value r j 2 v (full coin (.echo r j 1 v))), rv j i (.echo r j 2 (sign i (.echo r j 2 v)))])
  ++ (cs.map fun i => rv j i (.echo r j 2 (sign i (.echo r j 2 v))))

/-- Party `i` proposes `[i]`. -/
def inp (i : ℕ) : Bytes × Bytes := ([UInt8.ofNat i], [])

def net₀ (H : Finset ℕ) : MNet := MNet.init H inp 4

/-- Broadcasts of 0 and 1 end; party 0 counts the share of the corrupt party 3 three times, so `Recover` fails and the leader becomes 0; party 1 counts different shares and gets leader 1. -/
def splitRun : List (ℕ × MEvent) :=
  broadcast (fun _ => 1) 0 0 [0] [] [0, 1] [3] ++ broadcast (fun _ => 1) 0 1 [1] [] [0, 1] [3]
  ++ [rv 0 0 (.finish 0 [0] (full (fun _ => 1) (.echo 0 0 2 [0]))), rv 1 1 (.finish 0 [1] (full (fun _ => 1) (.echo 0 1 2 [1])))]
  ++ coins 0 3 0 ++ [(0, .elect 0)]
  ++ [rv 1 3 (.done 0 (sign 3 (.done 0))), rv 1 0 (.done 0 (sign 0 (.done 0))), (1, .elect 0), rv 1 1 (.done 0 (sign 1 (.done 0)))]
  ++ [0, 1].flatMap fun i => [(i, .takeLeader)] ++ quits i [2, 2, 3, 3] ++ [(i, .joined)]

/-- The corrupt party 0 is the leader of both rounds. In round 0 it has a first-stage certificate for `v` only. Party 1 gets three Yes votes and decides `v`; parties 2 and 3 count two No votes
and a Yes vote and go on with the value `v`. In round 1 party 0 broadcasts `w`, and party 2 decides it. -/
def lateRun (v w : Bytes) : List (ℕ × MEvent) :=
  let c1 := full (fun _ => 0) (.echo 0 0 1 v)
  let cn := full (fun _ => 0) (.no 0)
  let yes := fun i => MMsg.vote 0 true v c1 (sign i (.echo 0 0 2 v))
  let no := fun i => MMsg.vote 0 false [] cn (sign i (.unlock 0))
  [rv 1 0 (.value 0 0 1 v []), rv 2 0 (.value 0 0 1 v [])]
  ++ ([1, 2, 3].flatMap fun i => coins i 0 0 ++ [(i, .takeLeader)] ++ quits i (if i = 3 then [0, 0, 1, 1, 2, 2, 3, 3] else [0, 1, 1, 2, 2, 3, 3]) ++ [(i, .quitSend), (i, .joined)])
  ++ [rv 1 0 (.prevote 0 true v c1), rv 2 0 (.prevote 0 true v c1), (1, .sendVote 0), (2, .sendVote 0)]
  ++ [rv 3 0 (.prevote 0 false [] (sign 0 (.no 0))), rv 3 1 (.prevote 0 false [] (sign 1 (.no 0))), rv 3 2 (.prevote 0 false [] (sign 2 (.no 0))), (3, .sendVote 0)]
  ++ [rv 1 0 (yes 0), rv 1 1 (yes 1), rv 1 2 (yes 2), (1, .takeVote)]
  ++ ([2, 3].flatMap fun i => [rv i 0 (no 0), rv i 3 (no 3), rv i 2 (yes 2), (i, .takeVote)])
  ++ ([2, 3].map fun i => rv i 0 (.value 1 0 1 w []))
  ++ ([2, 3].map fun i => rv i 0 (.value 1 0 2 w (full (fun _ => 0) (.echo 1 0 1 w))))
  ++ [rv 2 0 (.finish 1 w (full (fun _ => 0) (.echo 1 0 2 w)))] ++ coins 2 0 1 ++ [(2, .takeLeader)] ++ quits 2 [1, 1, 2, 2, 3, 3] ++ [(2, .quitSend), (2, .joined)]

/-- The corrupt party 3 sends its share three times to party 0, whose certificate is then empty; every party that takes the second Value ends. -/
def fatalRun : List (ℕ × MEvent) :=
  List.replicate 3 (rv 0 3 (.echo 0 0 1 (sign 3 (.echo 0 0 1 [0]))))
  ++ ([0, 1, 2].map fun i => rv i 0 (.value 0 0 1 [0] [])) ++ ([0, 1, 2].map fun i => rv i 0 (.value 0 0 2 [0] []))

/-- The corrupt party 3 sends Values in the broadcast of party 0. -/
def hijackRun : List (ℕ × MEvent) :=
  [rv 1 3 (.value 0 0 1 [9] []), rv 2 3 (.value 0 0 1 [9] []), rv 1 3 (.value 0 0 2 [9] (full (fun _ => 0) (.echo 0 0 1 [9]))), rv 2 3 (.value 0 0 2 [9] (full (fun _ => 0) (.echo 0 0 1 [9])))]

/-- The corrupt leader 0 votes three times. -/
def aloneRun : List (ℕ × MEvent) :=
  let c1 := full (fun _ => 0) (.echo 0 0 1 [5])
  [rv 1 0 (.value 0 0 1 [5] []), rv 2 0 (.value 0 0 1 [5] [])] ++ coins 1 0 0 ++ [(1, .takeLeader)] ++ quits 1 [0, 1, 1, 2, 2, 3, 3] ++ [(1, .quitSend), (1, .joined)]
  ++ List.replicate 3 (rv 1 0 (.vote 0 true [5] c1 (sign 0 (.echo 0 0 2 [5])))) ++ [(1, .takeVote)]

/-- Nobody is corrupt: the broadcasts of 0, 1 and 2 end, parties 0 and 1 decide party 0's value. -/
def honestRun : List (ℕ × MEvent) :=
  ([0, 1, 2].flatMap fun j => broadcast (fun _ => 0) 0 j [UInt8.ofNat j] [] [0, 1, 2] [])
  ++ ([0, 1].flatMap fun i => ([0, 1, 2].map fun j => rv i j (.finish 0 [UInt8.ofNat j] (full (fun _ => 0) (.echo 0 j 2 [UInt8.ofNat j])))) ++ [(i, .elect 0)])
  ++ [rv 2 0 (.done 0 (sign 0 (.done 0))), rv 2 1 (.done 0 (sign 1 (.done 0))), (2, .elect 0)]
  ++ [0, 1].flatMap fun i => ([0, 1, 2].map fun j => rv i j (.done 0 (sign j (.done 0)))) ++ [(i, .takeLeader)] ++ quits i [3, 3] ++ [(i, .joined)]

theorem committee {coin : ℕ → UInt8} {H : Finset ℕ} (h : H = {0, 1, 2} ∨ H = {1, 2, 3}) : Committee (env coin) H := by
  rcases h with rfl | rfl
  · exact ⟨rfl, (by decide : ∀ i ∈ ({0, 1, 2} : Finset ℕ), i < 4), (by decide : 2 * 1 + 1 ≤ ({0, 1, 2} : Finset ℕ).card)⟩
  · exact ⟨rfl, (by decide : ∀ i ∈ ({1, 2, 3} : Finset ℕ), i < 4), (by decide : 2 * 1 + 1 ≤ ({1, 2, 3} : Finset ℕ).card)⟩

end Toy

open Toy

/-- **C38 is refuted.** There is an execution with one corrupt party of four, in a network that authenticates and does not repeat messages of honest parties, in which two honest parties
decide different values in round 0. -/
theorem C38_refuted : ∃ (env : MEnv) (full : SMsg → Bytes) (H : Finset ℕ) (input : ℕ → Bytes × Bytes) (evs : List (ℕ × MEvent)) (net : MNet),
    SchemeOk env full ∧ Committee env H ∧ (∀ a b, env.hash a = env.hash b → a = b) ∧ MRun env H ⟨true, true⟩ (MNet.init H input env.N) evs net ∧
    ∃ i ∈ H, ∃ j ∈ H, ∃ v w, Decides net i 0 v ∧ Decides net j 0 w ∧ v ≠ w := by
  obtain ⟨net, hr, hp⟩ := exists_run (coin := fun _ => 1) (H := {0, 1, 2}) (cfg := ⟨true, true⟩) (net₀ := net₀ {0, 1, 2}) splitRun
    (fun n => decide (Decides n 0 0 [0] ∧ Decides n 1 0 [1])) (by decide +kernel)
  have hp := of_decide_eq_true hp
  exact ⟨_, _, _, _, _, net, schemeOk _, committee (Or.inl rfl), fun _ _ h => h, hr, 0, by decide, 1, by decide, _, _, hp.1, hp.2, by decide⟩

/-- **C63 is refuted.** In the same execution two honest parties have different leaders in round 0. -/
theorem C63_refuted : ∃ (env : MEnv) (full : SMsg → Bytes) (H : Finset ℕ) (input : ℕ → Bytes × Bytes) (evs : List (ℕ × MEvent)) (net : MNet),
    SchemeOk env full ∧ Committee env H ∧ MRun env H ⟨true, true⟩ (MNet.init H input env.N) evs net ∧
    ∃ i ∈ H, ∃ j ∈ H, ∃ l l', ((net.party i).rounds 0).leader = some l ∧ ((net.party j).rounds 0).leader = some l' ∧ l ≠ l' := by
  obtain ⟨net, hr, hp⟩ := exists_run (coin := fun _ => 1) (H := {0, 1, 2}) (cfg := ⟨true, true⟩) (net₀ := net₀ {0, 1, 2}) splitRun
    (fun n => decide (((n.party 0).rounds 0).leader = some 0 ∧ ((n.party 1).rounds 0).leader = some 1)) (by decide +kernel)
  have hp := of_decide_eq_true hp
  exact ⟨_, _, _, _, _, net, schemeOk _, committee (Or.inl rfl), hr, 0, by decide, 1, by decide, _, _, hp.1, hp.2, by decide⟩

/-- **C39 is refuted**, also when all leaders are as the coin says: two honest parties decide different values in rounds 0 and 1. -/
theorem C39_refuted : ∃ (env : MEnv) (full : SMsg → Bytes) (H : Finset ℕ) (input : ℕ → Bytes × Bytes) (evs : List (ℕ × MEvent)) (net : MNet),
    SchemeOk env full ∧ Committee env H ∧ (∀ a b, env.hash a = env.hash b → a = b) ∧ MRun env H ⟨true, true⟩ (MNet.init H input env.N) evs net ∧
    (∀ i ∈ H, ∀ r ≤ (net.party i).round, ∀ l, ((net.party i).rounds r).leader = some l → l = leaderOf env (full (.done r))) ∧
    ∃ i ∈ H, ∃ j ∈ H, ∃ v w, Decides net i 0 v ∧ Decides net j 1 w ∧ v ≠ w := by
  obtain ⟨net, hr, hp⟩ := exists_run (coin := fun _ => 0) (H := {1, 2, 3}) (cfg := ⟨true, true⟩) (net₀ := net₀ {1, 2, 3}) (lateRun [5] [6])
    (fun n => decide (Decides n 1 0 [5] ∧ Decides n 2 1 [6] ∧
      ([1, 2, 3].all fun i => (List.range ((n.party i).round + 1)).all fun r => ((n.party i).rounds r).leader.getD 0 == 0) = true))
    (by decide +kernel)
  have hp := of_decide_eq_true hp
  refine ⟨_, _, _, _, _, net, schemeOk _, committee (Or.inr rfl), fun _ _ h => h, hr, ?_, 1, by decide, 2, by decide, _, _, hp.1, hp.2.1, by decide⟩
  intro i hi r hr' l hl
  have h0 : leaderOf (env fun _ => 0) (full (fun _ => 0) (.done r)) = 0 := rfl
  rw [h0]
  have h := List.all_eq_true.1 (List.all_eq_true.1 hp.2.2 i (by simpa using hi)) r (List.mem_range.2 (Nat.lt_succ_of_le hr'))
  rw [hl] at h
  simpa using h

/-- **C62 is refuted.** A corrupt party that repeats its Echo share makes an honest sender broadcast a second-stage Value without a valid certificate - upon which every honest party ends. -/
theorem C62_refuted : ∃ (env : MEnv) (full : SMsg → Bytes) (H : Finset ℕ) (input : ℕ → Bytes × Bytes) (evs : List (ℕ × MEvent)) (net : MNet),
    SchemeOk env full ∧ Committee env H ∧ MRun env H ⟨true, true⟩ (MNet.init H input env.N) evs net ∧
    (∃ i ∈ H, ∃ v sig, (i, MMsg.value 0 i 2 v sig) ∈ net.sent ∧ env.cert (.echo 0 i 1 (env.hash v)) sig = false) ∧ ∀ i ∈ H, (net.party i).dead = true := by
  obtain ⟨net, hr, hp⟩ := exists_run (coin := fun _ => 0) (H := {0, 1, 2}) (cfg := ⟨true, true⟩) (net₀ := net₀ {0, 1, 2}) fatalRun
    (fun n => decide ((0, MMsg.value 0 0 2 [0] []) ∈ n.sent ∧ ([0, 1, 2].all fun i => (n.party i).dead) = true)) (by decide +kernel)
  have hp := of_decide_eq_true hp
  exact ⟨_, _, _, _, _, net, schemeOk _, committee (Or.inl rfl), hr, ⟨0, by decide, _, _, hp.1, by decide⟩, fun i hi => List.all_eq_true.1 hp.2 i (by simpa using hi)⟩

/-- **C64 is refuted.** A corrupt party can have another value certified (both stages) in the broadcast of an honest party. -/
theorem C64_refuted : ∃ (env : MEnv) (full : SMsg → Bytes) (H : Finset ℕ) (input : ℕ → Bytes × Bytes) (evs : List (ℕ × MEvent)) (net : MNet),
    SchemeOk env full ∧ Committee env H ∧ (∀ a b, env.hash a = env.hash b → a = b) ∧ MRun env H ⟨true, true⟩ (MNet.init H input env.N) evs net ∧
    ∃ j ∈ H, ∃ v, v ≠ (input j).1 ∧ (∀ stage, stage = 1 ∨ stage = 2 → Genuine env H net.signed (full (.echo 0 j stage (env.hash v))) ∧
      env.cert (.echo 0 j stage (env.hash v)) (full (.echo 0 j stage (env.hash v))) = true) := by
  obtain ⟨net, hr, hp⟩ := exists_run (coin := fun _ => 0) (H := {0, 1, 2}) (cfg := ⟨true, true⟩) (net₀ := net₀ {0, 1, 2}) hijackRun
    (fun n => genuineB {0, 1, 2} n.signed (full (fun _ => 0) (.echo 0 0 1 [9])) && genuineB {0, 1, 2} n.signed (full (fun _ => 0) (.echo 0 0 2 [9]))) (by decide +kernel)
  rw [Bool.and_eq_true] at hp
  refine ⟨_, _, _, inp, _, net, schemeOk _, committee (Or.inl rfl), fun _ _ h => h, hr, 0, by decide, [9], by decide, ?_⟩
  rintro stage (rfl | rfl)
  · exact ⟨genuineB_sound hp.1, (schemeOk fun _ => 0).cert_full _⟩
  · exact ⟨genuineB_sound hp.2, (schemeOk fun _ => 0).cert_full _⟩

/-- **C65 is refuted.** An honest party decides a value that has no second-stage quorum: the corrupt leader's vote is counted three times. -/
theorem C65_refuted : ∃ (env : MEnv) (full : SMsg → Bytes) (H : Finset ℕ) (input : ℕ → Bytes × Bytes) (evs : List (ℕ × MEvent)) (net : MNet),
    SchemeOk env full ∧ Committee env H ∧ MRun env H ⟨true, true⟩ (MNet.init H input env.N) evs net ∧
    ∃ i ∈ H, ∃ v, Decides net i 0 v ∧ ∀ j, ¬ Quorum env H net.signed (.echo 0 j 2 (env.hash v)) := by
  obtain ⟨net, hr, hp⟩ := exists_run (coin := fun _ => 0) (H := {1, 2, 3}) (cfg := ⟨true, true⟩) (net₀ := net₀ {1, 2, 3}) aloneRun
    (fun n => decide (Decides n 1 0 [5] ∧ ∀ e ∈ n.signed, e ∈ [((1 : ℕ), SMsg.echo 0 0 1 [5]), (2, .echo 0 0 1 [5]), (1, .no 0)])) (by decide +kernel)
  have hp := of_decide_eq_true hp
  refine ⟨_, _, _, _, _, net, schemeOk _, committee (Or.inr rfl), hr, 1, by decide, _, hp.1, fun j hq => ?_⟩
  obtain ⟨i, -, hi⟩ := hq.honest (committee (Or.inr rfl))
  have := hp.2 _ hi
  simp at this

/-- **C65 (the part that holds).** A decision always has a first-stage quorum for the leader; if it comes from a Finish or Halt message, also a second-stage quorum; and without corrupt parties
always. -/
theorem C65_first_stage_partial {env : MEnv} {H : Finset ℕ} (hc : Committee env H) {cfg : MNetCfg} {input : ℕ → Bytes × Bytes} {evs : List (ℕ × MEvent)} {net : MNet}
    (h : MRun env H cfg (MNet.init H input env.N) evs net) {i r : ℕ} {v : Bytes} (hi : i ∈ H) (hv : Decides net i r v) :
    ∃ l, ((net.party i).rounds r).leader = some l ∧ Quorum env H net.signed (.echo r l 1 (env.hash v)) ∧
      ((∃ sig, ((net.party i).rounds r).voteOut = some (.yes v sig)) ∨ Quorum env H net.signed (.echo r l 2 (env.hash v))) := by
  obtain ⟨-, l, hl, q⟩ := decided_quorum hc h hi hv
  obtain ⟨-, l', hl', q'⟩ := (h.inv i hi).decided r v hv
  rw [hl] at hl'
  cases hl'
  exact ⟨l, hl, q, q'⟩

theorem C65_crash_partial {env : MEnv} {full : SMsg → Bytes} (hok : SchemeOk env full) (hN : env.N = 3 * env.F + 1) {input : ℕ → Bytes × Bytes} {evs : List (ℕ × MEvent)} {net : MNet}
    (h : MRun env (Finset.range env.N) ⟨true, true⟩ (MNet.init (Finset.range env.N) input env.N) evs net) (hsrc : ∀ i q m, (i, MEvent.recv q m) ∈ evs → q < env.N)
    {i r : ℕ} {v : Bytes} (hi : i < env.N) (hv : Decides net i r v) : ∃ l, Quorum env (Finset.range env.N) net.signed (.echo r l 2 (env.hash v)) :=
  ⟨_, crash_decided hok hN h hsrc hi hv⟩

/-- The crash-fault theorems are about something: an execution without corrupt parties in which two parties decide. -/
example : ∃ net, MRun (env fun _ => 0) (Finset.range 4) ⟨true, true⟩ (net₀ (Finset.range 4)) honestRun net ∧ Decides net 0 0 [0] ∧ Decides net 1 0 [0] := by
  obtain ⟨net, hr, hp⟩ := exists_run (coin := fun _ => 0) (H := Finset.range 4) (cfg := ⟨true, true⟩) (net₀ := net₀ (Finset.range 4)) honestRun
    (fun n => decide (Decides n 0 0 [0] ∧ Decides n 1 0 [0])) (by decide +kernel)
  exact ⟨net, hr, of_decide_eq_true hp⟩

/-- A byte string that is no signature, for C41. -/
example : ∀ m, (env fun _ => 0).share m [] = none ∧ (env fun _ => 0).cert m [] = false := fun _ => ⟨rfl, rfl⟩

/-- In that execution the theorems about one round say: the leader is the one of the coin, the two decisions agree, and they have quorums of both stages. -/
example : ∃ net, MRun (env fun _ => 0) (Finset.range 4) ⟨true, true⟩ (net₀ (Finset.range 4)) honestRun net ∧ Decides net 0 0 [0] ∧ Decides net 1 0 [0] ∧
    (∀ l, ((net.party 1).rounds 0).leader = some l → l = leaderOf (env fun _ => 0) (full (fun _ => 0) (.done 0))) ∧
    (∀ w, Decides net 1 0 w → w = [0]) ∧ (∃ l, Quorum (env fun _ => 0) (Finset.range 4) net.signed (.echo 0 l 2 [0])) ∧ ∃ l, Quorum (env fun _ => 0) (Finset.range 4) net.signed (.echo 0 l 1 [0]) := by
  obtain ⟨net, hr, hp⟩ := exists_run (coin := fun _ => 0) (H := Finset.range 4) (cfg := ⟨true, true⟩) (net₀ := net₀ (Finset.range 4)) honestRun
    (fun n => decide (Decides n 0 0 [0] ∧ Decides n 1 0 [0] ∧ (coinSigners (env fun _ => 0) n 0 0).Nodup ∧ (coinSigners (env fun _ => 0) n 1 0).Nodup)) (by decide +kernel)
  obtain ⟨h0, h1, c0, c1⟩ := of_decide_eq_true hp
  have hc : Committee (env fun _ => 0) (Finset.range 4) := ⟨rfl, (by decide : ∀ i ∈ Finset.range 4, i < 4), (by decide : 2 * 1 + 1 ≤ (Finset.range 4).card)⟩
  have hsrc : ∀ i q m, (i, MEvent.recv q m) ∈ honestRun → q < 4 := by
    have : honestRun.all (fun x => match x.2 with | .recv q _ => decide (q < 4) | _ => true) = true := by decide +kernel
    intro i q m hm
    exact of_decide_eq_true (List.all_eq_true.1 this _ hm)
  obtain ⟨l, -, q1, -⟩ := C65_first_stage_partial hc hr (i := 0) (by decide) h0
  refine ⟨net, hr, h0, h1, fun l hl => C63_leader_partial (schemeOk _) hr (i := 1) (by decide) hl c1, fun w hw => ?_,
    C65_crash_partial (schemeOk _) rfl hr hsrc (i := 0) (by decide) h0, l, q1⟩
  have e1 : (env fun _ => 0).hash w = (env fun _ => 0).hash [0] := C38_distinct_coins_partial (schemeOk _) hc hr (i := 1) (j := 0) (by decide) (by decide) hw h0 c1 c0
  have e2 : (env fun _ => 0).hash w = (env fun _ => 0).hash [0] := C39_crash_partial (schemeOk _) rfl hr hsrc (i := 1) (j := 0) (by decide) (by decide) hw h0
  exact e1.trans (e2.symm.trans e1)

/-- Party 3 is corrupt and has two values certified in two broadcasts (`splitRun`); in each broadcast no second value can have a certificate. -/
example : ∃ net, MRun (env fun _ => 1) {0, 1, 2} ⟨true, true⟩ (net₀ {0, 1, 2}) splitRun net ∧ Genuine (env fun _ => 1) {0, 1, 2} net.signed (full (fun _ => 1) (.echo 0 0 1 [0])) ∧
    ∀ b τ, Genuine (env fun _ => 1) {0, 1, 2} net.signed τ → ((env fun _ => 1).cert (.echo 0 0 1 b) τ = true ∨ (env fun _ => 1).cert (.echo 0 0 2 b) τ = true) → b = [0] := by
  obtain ⟨net, hr, hp⟩ := exists_run (coin := fun _ => 1) (H := {0, 1, 2}) (cfg := ⟨true, true⟩) (net₀ := net₀ {0, 1, 2}) splitRun
    (fun n => genuineB {0, 1, 2} n.signed (full (fun _ => 1) (.echo 0 0 1 [0]))) (by decide +kernel)
  have hg := genuineB_sound (coin := fun _ => 1) hp
  refine ⟨net, hr, hg, fun b τ hτ hb => ?_⟩
  rcases hb with hb | hb
  · exact (C37_certificates_unique (committee (Or.inl rfl)) hr (Or.inl rfl) hg hτ ((schemeOk fun _ => 1).cert_full _) hb).symm
  · exact (C37_stages_agree (committee (Or.inl rfl)) hr hg hτ ((schemeOk fun _ => 1).cert_full _) hb).symm

end DyCAPS

import Verif.Lemmas.RBC
import Mathlib.Data.Finset.Card
import Mathlib.Data.Finset.Range

/-!
# Reliable broadcast: the safety invariant
-/

namespace DyCAPS

/-- The senders of the Echoes with content `(h, m)` handled by `j`. -/
def echoesTo (evs : List NEvent) (j : ℕ) (h m : Bytes) : List ℕ :=
  evs.filterMap fun
    | .deliver j' .echo s d => if j' = j ∧ (echoPayload d).hash = h ∧ (echoPayload d).m = m then some s else none
    | _ => none

def Echoed (sent : List (ℕ × ROut)) (s : ℕ) (h : Bytes) : Prop := ∃ o, (s, o) ∈ sent ∧ o.kind = .echo ∧ (echoPayload o.data).hash = h

/-- `N - F` parties, the honest among which have sent an Echo for `h`. -/
def Justified (env : REnv) (H : Finset ℕ) (sent : List (ℕ × ROut)) (h : Bytes) : Prop :=
  ∃ Q : Finset ℕ, env.N - env.F ≤ Q.card ∧ (∀ s ∈ Q, s < env.N) ∧ ∀ s ∈ Q, s ∈ H → Echoed sent s h

theorem Justified.mono {env : REnv} {H : Finset ℕ} {s1 s2 : List (ℕ × ROut)} (hs : s1 ⊆ s2) {h : Bytes} (hj : Justified env H s1 h) : Justified env H s2 h := by
  obtain ⟨Q, h1, h2, h3⟩ := hj
  refine ⟨Q, h1, h2, fun s hs' hH => ?_⟩
  obtain ⟨o, ho, h4⟩ := h3 s hs' hH
  exact ⟨o, hs ho, h4⟩

/-- What the body of the function knows. -/
def MainOk (env : REnv) (J : Bytes → Prop) (maxN : ℕ) : MainPos → Prop
  | .start => True
  | .poll _ => True
  | .locked _ => env.F + 1 ≤ maxN
  | .gotM _ _ => env.F + 1 ≤ maxN
  | .gotLen _ _ _ => env.F + 1 ≤ maxN
  | .trunc _ _ _ v => env.F + 1 ≤ maxN ∧ ∃ h, J h ∧ v = h.take 32
  | .cmp _ _ => env.F + 1 ≤ maxN
  | .returned none => True
  | .returned (some m) => ∃ h, J h ∧ env.sha m = h.take 32

theorem MainOk.mono {env : REnv} {J J' : Bytes → Prop} (hJ : ∀ h, J h → J' h) {a b : ℕ} (hab : a ≤ b) {p : MainPos} (h : MainOk env J a p) : MainOk env J' b p := by
  cases p with
  | start => trivial
  | poll => trivial
  | locked => exact le_trans h hab
  | gotM => exact le_trans h hab
  | gotLen => exact le_trans h hab
  | trunc r rec n v => obtain ⟨h1, h', h2, h3⟩ := h; exact ⟨h1.trans hab, h', hJ _ h2, h3⟩
  | cmp => exact le_trans h hab
  | returned res =>
    cases res with
    | none => trivial
    | some m => obtain ⟨h', h2, h3⟩ := h; exact ⟨h', hJ _ h2, h3⟩

/-- Sizes in the Ready goroutine. -/
def PosLen : ReadyPos → Prop
  | .idle => True
  | .check h => h.length ≤ 2 ^ 32
  | .wait h => h.length ≤ 2 ^ 32
  | .got h r => h.length ≤ 2 ^ 32 ∧ r.2.length ≤ 2 ^ 32
  | .send h m => h.length ≤ 2 ^ 32 ∧ m.length ≤ 2 ^ 32
  | .fin _ => True

/-- Invariant of the state of honest party `j`. -/
structure PartyInv (env : REnv) (H : Finset ℕ) (evs : List NEvent) (sent : List (ℕ × ROut)) (j : ℕ) (s : RState) : Prop where
  cnt : ∀ h m, s.echo h m = (echoesTo evs j h m).length
  tnodup : ∀ h, ((s.T h).map Prod.fst).Nodup
  tlt : ∀ h, ∀ x ∈ s.T h, x.1 < env.N ∧ s.seen x.1 = true
  thon : ∀ h, ∀ x ∈ s.T h, x.1 ∈ H → ∃ d, (x.1, (⟨j, .ready, d⟩ : ROut)) ∈ sent ∧ readyPayload d = ⟨h, x.2⟩
  pos : ∀ h, (s.readyPos = .wait h ∨ (∃ r, s.readyPos = .got h r) ∨ ∃ m, s.readyPos = .send h m) → Justified env H sent h
  max : env.F + 1 ≤ s.maxN → ∃ h, Justified env H sent h ∧ s.maxH.take 32 = h.take 32
  mpos : MainOk env (Justified env H sent) s.maxN s.mainPos
  lchan : ∀ x ∈ s.readyChan, x.2.length ≤ 2 ^ 32
  lblk : ∀ h m, s.echoPos = .blocked h m → m.length ≤ 2 ^ 32
  lpos : PosLen s.readyPos

theorem PartyInv.mono {env : REnv} {H : Finset ℕ} {evs evs' : List NEvent} {s1 s2 : List (ℕ × ROut)} {j : ℕ} {s : RState} (h : PartyInv env H evs s1 j s) (hs : s1 ⊆ s2)
    (he : ∀ h m, echoesTo evs' j h m = echoesTo evs j h m) : PartyInv env H evs' s2 j s where
  cnt := fun a m => by rw [he]; exact h.cnt a m
  tnodup := h.tnodup
  tlt := h.tlt
  thon := fun a x hx hH => by
    obtain ⟨d, h1, h2⟩ := h.thon a x hx hH
    exact ⟨d, hs h1, h2⟩
  pos := fun a ha => (h.pos a ha).mono hs
  max := fun hm => by
    obtain ⟨a, h1, h2⟩ := h.max hm
    exact ⟨a, h1.mono hs, h2⟩
  mpos := h.mpos.mono (fun _ hj => hj.mono hs) le_rfl
  lchan := h.lchan
  lblk := h.lblk
  lpos := h.lpos

/-- The messages sent by honest parties. -/
structure SentInv (env : REnv) (H : Finset ℕ) (evs : List NEvent) (net : RNet) : Prop where
  auth : ∀ j k s d, .deliver j k s d ∈ evs → s < env.N ∧ d.length < 2 ^ 32 ∧ (s ∈ H → (s, (⟨j, k, d⟩ : ROut)) ∈ net.sent)
  echo : ∀ s ∈ H, ((net.party s).proposed = false ∧ ∀ o, (s, o) ∈ net.sent → o.kind ≠ .echo) ∨
    (net.party s).proposed = true ∧ ∃ D src, .deliver s .propose src D ∈ evs ∧ ∀ o, (s, o) ∈ net.sent → o.kind = .echo →
      ∃ sh, env.rs.encode D = some sh ∧ o.data = marshal (⟨echoHash env D, sh.getD o.dst []⟩ : PRBCEcho)
  ready : ∀ s ∈ H, ∀ o, (s, o) ∈ net.sent → o.kind = .ready → Justified env H net.sent (readyPayload o.data).hash

theorem intToBytes_length (v : ℤ) : (intToBytes v).length = 4 := by
  simp [intToBytes, uint32ToBytes]

theorem echoHash_length {env : REnv} (ok : env.Ok) (D : Bytes) : (echoHash env D).length = 36 := by
  simp [echoHash, ok.sha_len, intToBytes_length]

theorem echo_decode {env : REnv} (ok : env.Ok) {D : Bytes} {sh : List Bytes} (hD : D.length < 2 ^ 32) (he : env.rs.encode D = some sh) (j : ℕ) :
    echoPayload (marshal (⟨echoHash env D, sh.getD j []⟩ : PRBCEcho)) = ⟨echoHash env D, sh.getD j []⟩ := by
  apply echoPayload_marshal
  · rw [echoHash_length ok]; norm_num
  · have : sh.getD j [] = [] ∨ sh.getD j [] ∈ sh := by
      by_cases hj : j < sh.length
      · right; rw [List.getD_eq_getElem _ _ hj]; exact List.getElem_mem hj
      · left; exact List.getD_eq_default _ _ (by omega)
    rcases this with h | h
    · rw [h]; simp
    · exact ((ok.shard_len D sh he _ h).2.trans hD.le)

/-- Honest parties among `F + 1` distinct ones. -/
theorem exists_honest {env : REnv} {H : Finset ℕ} (hH : HonestSet env H) (hF : env.F ≤ env.N) {Q : Finset ℕ} (hQ : ∀ s ∈ Q, s < env.N) (hc : env.F + 1 ≤ Q.card) :
    ∃ s ∈ Q, s ∈ H := by
  by_contra hcon
  push Not at hcon
  have hd : Disjoint Q H := Finset.disjoint_left.2 hcon
  have hsub : Q ∪ H ⊆ Finset.range env.N := by
    intro x hx
    rcases Finset.mem_union.1 hx with h | h
    · exact Finset.mem_range.2 (hQ x h)
    · exact Finset.mem_range.2 (hH.lt x h)
  have := Finset.card_le_card hsub
  rw [Finset.card_union_of_disjoint hd, Finset.card_range] at this
  have := hH.card
  omega

/-- Only one hash is ever justified. -/
theorem Justified.unique {env : REnv} (ok : env.Ok) {H : Finset ℕ} (hH : HonestSet env H) {evs : List NEvent} {net : RNet} (hi : SentInv env H evs net) {h h' : Bytes}
    (hj : Justified env H net.sent h) (hj' : Justified env H net.sent h') : h = h' := by
  obtain ⟨Q, h1, h2, h3⟩ := hj
  obtain ⟨Q', h1', h2', h3'⟩ := hj'
  have hsz := ok.size
  have hint : env.F + 1 ≤ (Q ∩ Q').card := by
    have hu : (Q ∪ Q').card ≤ env.N := by
      have : Q ∪ Q' ⊆ Finset.range env.N := by
        intro x hx
        rcases Finset.mem_union.1 hx with h | h
        · exact Finset.mem_range.2 (h2 x h)
        · exact Finset.mem_range.2 (h2' x h)
      simpa using Finset.card_le_card this
    have := Finset.card_union_add_card_inter Q Q'
    omega
  obtain ⟨s, hs, hsH⟩ := exists_honest hH (by omega) (fun s hs => h2 s (Finset.mem_inter.1 hs).1) hint
  obtain ⟨o, ho, hk, he⟩ := h3 s (Finset.mem_inter.1 hs).1 hsH
  obtain ⟨o', ho', hk', he'⟩ := h3' s (Finset.mem_inter.1 hs).2 hsH
  rcases hi.echo s hsH with ⟨_, hno⟩ | ⟨_, D, src, hD, hall⟩
  · exact absurd hk (hno o ho)
  · obtain ⟨_, hlen, _⟩ := hi.auth _ _ _ _ hD
    obtain ⟨sh, e1, e2⟩ := hall o ho hk
    obtain ⟨sh', e1', e2'⟩ := hall o' ho' hk'
    rw [e2, echo_decode ok hlen e1] at he
    rw [e2', echo_decode ok hlen e1'] at he'
    rw [← he, ← he']

/-- A hash with `F + 1` Readys is justified. -/
theorem PartyInv.readyJ {env : REnv} (ok : env.Ok) {H : Finset ℕ} (hH : HonestSet env H) {evs : List NEvent} {net : RNet} (hi : SentInv env H evs net) {j : ℕ} {s : RState}
    (hp : PartyInv env H evs net.sent j s) {h : Bytes} (hc : env.F + 1 ≤ (s.T h).length) : Justified env H net.sent h := by
  have hcard : ((s.T h).map Prod.fst).toFinset.card = (s.T h).length := by
    rw [List.toFinset_card_of_nodup (hp.tnodup h), List.length_map]
  have hsz := ok.size
  obtain ⟨x, hx, hxH⟩ := exists_honest hH (by omega) (Q := ((s.T h).map Prod.fst).toFinset)
    (by
      intro x hx
      simp only [List.mem_toFinset, List.mem_map] at hx
      obtain ⟨y, hy, rfl⟩ := hx
      exact (hp.tlt h y hy).1) (by omega)
  simp only [List.mem_toFinset, List.mem_map] at hx
  obtain ⟨y, hy, rfl⟩ := hx
  obtain ⟨d, hd, he⟩ := hp.thon h y hy hxH
  have := hi.ready _ hxH _ hd rfl
  simpa only [he] using this

/-! ## Steps of one party -/

theorem echoesTo_snoc (evs : List NEvent) (e : NEvent) (j : ℕ) (h m : Bytes) : echoesTo (evs ++ [e]) j h m = echoesTo evs j h m ++ echoesTo [e] j h m := by
  simp only [echoesTo, List.filterMap_append]

theorem echoSenders_snoc (evs : List NEvent) (e : NEvent) (j : ℕ) : echoSenders (evs ++ [e]) j = echoSenders evs j ++ echoSenders [e] j := by
  simp only [echoSenders, List.filterMap_append]

theorem EchoOnce.init {evs : List NEvent} {e : NEvent} (h : EchoOnce (evs ++ [e])) : EchoOnce evs := by
  intro j
  have := h j
  rw [echoSenders_snoc] at this
  exact (List.nodup_append.1 this).1

theorem echoesTo_sublist (evs : List NEvent) (j : ℕ) (h m : Bytes) : (echoesTo evs j h m).Sublist (echoSenders evs j) := by
  induction evs with
  | nil => exact List.Sublist.refl _
  | cons e es ih =>
    have e1 : ∀ l : List NEvent, echoesTo (e :: l) j h m = echoesTo [e] j h m ++ echoesTo l j h m := fun l => by
      simp only [echoesTo, List.filterMap_cons, List.filterMap_nil]; split <;> rfl
    have e2 : ∀ l : List NEvent, echoSenders (e :: l) j = echoSenders [e] j ++ echoSenders l j := fun l => by
      simp only [echoSenders, List.filterMap_cons, List.filterMap_nil]; split <;> rfl
    rw [e1, e2]
    refine List.Sublist.append ?_ ih
    unfold echoesTo echoSenders
    simp only [List.filterMap_cons, List.filterMap_nil]
    cases e with
    | deliver j' k s d =>
      cases k with
      | echo =>
        by_cases hj : j' = j
        · by_cases hh : (echoPayload d).hash = h ∧ (echoPayload d).m = m <;> simp [hj, hh]
        · simp [hj]
      | propose => simp
      | ready => simp
    | send => simp
    | sendExcl => simp
    | run => simp

theorem mem_echoesTo {evs : List NEvent} {j : ℕ} {h m : Bytes} {s : ℕ} :
    s ∈ echoesTo evs j h m ↔ ∃ d, .deliver j .echo s d ∈ evs ∧ (echoPayload d).hash = h ∧ (echoPayload d).m = m := by
  unfold echoesTo
  rw [List.mem_filterMap]
  constructor
  · rintro ⟨e, he, h1⟩
    split at h1
    · rename_i j' s' d
      split at h1
      · rename_i hc
        cases h1
        obtain ⟨rfl, h2⟩ := hc
        exact ⟨d, he, h2⟩
      · cases h1
    · cases h1
  · rintro ⟨d, he, h2⟩
    exact ⟨_, he, by simp [h2]⟩

/-- `N - F` Echoes from different parties justify the hash. -/
theorem echo_quorum {env : REnv} {H : Finset ℕ} {evs : List NEvent} {net : RNet} {j : ℕ}
    (hauth : ∀ j k s d, .deliver j k s d ∈ evs → s < env.N ∧ d.length < 2 ^ 32 ∧ (s ∈ H → (s, (⟨j, k, d⟩ : ROut)) ∈ net.sent))
    (hone : EchoOnce evs) {h m : Bytes} (hc : env.N - env.F ≤ (echoesTo evs j h m).length) : Justified env H net.sent h := by
  have hnd : (echoesTo evs j h m).Nodup := (hone j).sublist (echoesTo_sublist evs j h m)
  refine ⟨(echoesTo evs j h m).toFinset, by rw [List.toFinset_card_of_nodup hnd]; exact hc, ?_, ?_⟩
  · intro s hs
    obtain ⟨d, hd, _⟩ := mem_echoesTo.1 (List.mem_toFinset.1 hs)
    exact (hauth _ _ _ _ hd).1
  · intro s hs hH
    obtain ⟨d, hd, h1, _⟩ := mem_echoesTo.1 (List.mem_toFinset.1 hs)
    exact ⟨_, (hauth _ _ _ _ hd).2.2 hH, rfl, h1⟩

theorem step_echo {env : REnv} {H : Finset ℕ} {evs : List NEvent} {net : RNet} {j src : ℕ} {s : RState} {d : Bytes}
    (hp : PartyInv env H evs net.sent j s)
    (hauth : ∀ j' k s d', .deliver j' k s d' ∈ evs ++ [.deliver j .echo src d] → s < env.N ∧ d'.length < 2 ^ 32 ∧ (s ∈ H → (s, (⟨j', k, d'⟩ : ROut)) ∈ net.sent))
    (hone : EchoOnce (evs ++ [.deliver j .echo src d])) :
    PartyInv env H (evs ++ [.deliver j .echo src d]) net.sent j (onEcho env s (echoPayload d).hash (echoPayload d).m).1 ∧
    (∀ o ∈ (onEcho env s (echoPayload d).hash (echoPayload d).m).2, o.kind = .ready ∧ Justified env H net.sent (readyPayload o.data).hash) ∧
    (onEcho env s (echoPayload d).hash (echoPayload d).m).1.proposed = s.proposed := by
  have hdl : d.length < 2 ^ 32 := (hauth j .echo src d (by simp)).2.1
  have hl := echoPayload_len d
  have hcnt : ∀ h m, (if h = (echoPayload d).hash ∧ m = (echoPayload d).m then s.echo (echoPayload d).hash (echoPayload d).m + 1 else s.echo h m) =
      (echoesTo (evs ++ [.deliver j .echo src d]) j h m).length := by
    intro h m
    rw [echoesTo_snoc, List.length_append, ← hp.cnt]
    by_cases hc : h = (echoPayload d).hash ∧ m = (echoPayload d).m
    · obtain ⟨rfl, rfl⟩ := hc
      simp [echoesTo]
    · rw [if_neg hc]
      have : ¬ ((echoPayload d).hash = h ∧ (echoPayload d).m = m) := fun ⟨a, b⟩ => hc ⟨a.symm, b.symm⟩
      simp [echoesTo, this]
  have hlen : (echoesTo (evs ++ [.deliver j .echo src d]) j (echoPayload d).hash (echoPayload d).m).length = s.echo (echoPayload d).hash (echoPayload d).m + 1 := by
    rw [← hcnt]; simp
  generalize (echoPayload d).hash = h at *
  generalize (echoPayload d).m = m at *
  have hout : ∀ o ∈ (if (!s.readySent && decide (env.N - env.F ≤ s.echo h m + 1)) = true then rBroadcast env.N .ready (marshal (⟨h, m⟩ : PRBCReady)) else []),
      o.kind = .ready ∧ Justified env H net.sent (readyPayload o.data).hash := by
    intro o ho
    split at ho
    · rename_i hq
      simp only [Bool.and_eq_true, decide_eq_true_eq] at hq
      simp only [rBroadcast, List.mem_map] at ho
      obtain ⟨i, _, rfl⟩ := ho
      refine ⟨rfl, ?_⟩
      rw [readyPayload_marshal h m (by omega) (by omega)]
      exact echo_quorum hauth hone (j := j) (m := m) (by rw [hlen]; exact hq.2)
    · cases ho
  unfold onEcho
  simp only
  split
  · split
    · refine ⟨⟨hcnt, hp.tnodup, hp.tlt, hp.thon, hp.pos, hp.max, hp.mpos, ?_, ?_, hp.lpos⟩, hout, rfl⟩
      · intro x hx
        rcases List.mem_append.1 hx with h1 | h1
        · exact hp.lchan x h1
        · rw [List.mem_singleton.1 h1]; show m.length ≤ _; omega
      · intro h' m' hb; simp only at hb; split at hb <;> cases hb
    · refine ⟨⟨hcnt, hp.tnodup, hp.tlt, hp.thon, hp.pos, hp.max, hp.mpos, hp.lchan, ?_, hp.lpos⟩, hout, rfl⟩
      intro h' m' hb; cases hb; omega
  · refine ⟨⟨hcnt, hp.tnodup, hp.tlt, hp.thon, hp.pos, hp.max, hp.mpos, hp.lchan, ?_, hp.lpos⟩, hout, rfl⟩
    intro h' m' hb; simp only at hb; split at hb <;> cases hb

theorem step_ready {env : REnv} (ok : env.Ok) {H : Finset ℕ} (hH : HonestSet env H) {evs : List NEvent} {net : RNet} {j src : ℕ} {s : RState} {d : Bytes}
    (hp : PartyInv env H evs net.sent j s) (hi : SentInv env H evs net)
    (hs : src < env.N) (hdl : d.length < 2 ^ 32) (hau : src ∈ H → (src, (⟨j, .ready, d⟩ : ROut)) ∈ net.sent) :
    PartyInv env H evs net.sent j (onReady s src (readyPayload d).hash (readyPayload d).m) ∧
    (onReady s src (readyPayload d).hash (readyPayload d).m).proposed = s.proposed := by
  have hl := readyPayload_len d
  have hpl : readyPayload d = ⟨(readyPayload d).hash, (readyPayload d).m⟩ := rfl
  generalize (readyPayload d).hash = h at *
  generalize (readyPayload d).m = m at *
  unfold onReady
  split
  · exact ⟨hp, rfl⟩
  · rename_i hns
    have h1 : PartyInv env H evs net.sent j { s with
        seen := fun j' => if j' = src then true else s.seen j'
        T := fun h' => if h' = h then s.T h ++ [(src, m)] else s.T h'
        readyPos := .check h } := by
      refine ⟨hp.cnt, ?_, ?_, ?_, ?_, hp.max, hp.mpos, hp.lchan, hp.lblk, ?_⟩
      · intro h'
        show (List.map Prod.fst (if h' = h then s.T h ++ [(src, m)] else s.T h')).Nodup
        split
        · rw [List.map_append, List.nodup_append]
          refine ⟨hp.tnodup h, by simp, ?_⟩
          intro a ha b hb
          simp only [List.map_cons, List.map_nil, List.mem_singleton] at hb
          subst hb
          rintro rfl
          obtain ⟨x, hx, rfl⟩ := List.mem_map.1 ha
          exact hns (hp.tlt h x hx).2
        · exact hp.tnodup h'
      · intro h' x hx
        have hx : x ∈ (if h' = h then s.T h ++ [(src, m)] else s.T h') := hx
        have hx : x ∈ s.T h' ∨ x = (src, m) := by
          split at hx
          · rename_i he; subst he
            simpa using hx
          · exact Or.inl hx
        rcases hx with hx | rfl
        · refine ⟨(hp.tlt h' x hx).1, ?_⟩
          simp only
          split
          · rfl
          · exact (hp.tlt h' x hx).2
        · exact ⟨hs, by simp⟩
      · intro h' x hx hxH
        have hx : x ∈ (if h' = h then s.T h ++ [(src, m)] else s.T h') := hx
        have hx : x ∈ s.T h' ∨ (h' = h ∧ x = (src, m)) := by
          split at hx
          · rename_i he; subst he
            simpa using hx
          · exact Or.inl hx
        rcases hx with hx | ⟨rfl, rfl⟩
        · exact hp.thon h' x hx hxH
        · exact ⟨d, hau hxH, hpl⟩
      · intro h' hh
        simp at hh
      · show h.length ≤ _; omega
    simp only
    split
    · rename_i hgt
      refine ⟨⟨h1.cnt, h1.tnodup, h1.tlt, h1.thon, h1.pos, ?_, ?_, h1.lchan, h1.lblk, h1.lpos⟩, by first | rfl | (dsimp only)⟩
      · intro hm
        refine ⟨h, h1.readyJ ok hH hi ?_, rfl⟩
        simpa using hm
      · exact hp.mpos.mono (fun _ h => h) (le_of_lt (by simpa using hgt))
    · exact ⟨h1, rfl⟩

theorem step_readyStep {env : REnv} (ok : env.Ok) {H : Finset ℕ} (hH : HonestSet env H) {evs : List NEvent} {net : RNet} {j : ℕ} {s s' : RState} {out : List ROut}
    (hp : PartyInv env H evs net.sent j s) (hi : SentInv env H evs net) (hst : onReadyStep env s = some (s', out)) :
    PartyInv env H evs net.sent j s' ∧ (∀ o ∈ out, o.kind = .ready ∧ Justified env H net.sent (readyPayload o.data).hash) ∧ s'.proposed = s.proposed := by
  have base : ∀ p chan rs ds, (∀ h, (p = ReadyPos.wait h ∨ (∃ r, p = .got h r) ∨ ∃ m, p = .send h m) → Justified env H net.sent h) → PosLen p →
      (∀ x ∈ chan, x.2.length ≤ 2 ^ 32) → PartyInv env H evs net.sent j { s with readyPos := p, readyChan := chan, readySent := rs, decStart := ds } :=
    fun p chan rs ds h1 h2 h3 => ⟨hp.cnt, hp.tnodup, hp.tlt, hp.thon, h1, hp.max, hp.mpos, h3, hp.lblk, h2⟩
  have hlp := hp.lpos
  have hpos := hp.pos
  unfold onReadyStep at hst
  split at hst
  · cases hst
  · rename_i h hpe
    rw [hpe] at hlp hpos
    split at hst
    · cases hst
    · cases hst
      refine ⟨base _ _ _ _ ?_ ?_ hp.lchan, by simp, rfl⟩
      · intro h' hh
        split at hh
        · rename_i hc
          simp only [ReadyPos.wait.injEq, reduceCtorEq, exists_false, or_false] at hh
          subst hh
          exact hp.readyJ ok hH hi hc.2
        · simp at hh
      · split
        · exact hlp
        · trivial
  · rename_i h hpe
    rw [hpe] at hlp hpos
    split at hst
    · cases hst
    · rename_i res rest hch
      cases hst
      have hc := hp.lchan
      rw [hch] at hc
      refine ⟨base _ _ _ _ ?_ ⟨hlp, hc _ (by simp)⟩ (fun x hx => hc x (by simp [hx])), by simp, rfl⟩
      intro h' hh
      refine hpos h' (Or.inl ?_)
      simp at hh
      rw [hh]
  · rename_i h res hpe
    rw [hpe] at hlp hpos
    split at hst
    · cases hst
    · cases hst
      refine ⟨base _ _ _ _ ?_ ?_ hp.lchan, by simp, rfl⟩
      · intro h' hh
        refine hpos h' (Or.inr (Or.inl ⟨res, ?_⟩))
        split at hh <;> simp at hh <;> rw [hh]
      · split
        · exact hlp
        · exact hlp.1
  · rename_i h m hpe
    rw [hpe] at hlp hpos
    split at hst
    · cases hst
    · cases hst
      refine ⟨base _ _ _ _ ?_ trivial hp.lchan, ?_, rfl⟩
      · intro h' hh; simp at hh
      · intro o ho
        simp only [rBroadcast, List.mem_map] at ho
        obtain ⟨i, _, rfl⟩ := ho
        refine ⟨rfl, ?_⟩
        rw [readyPayload_marshal h m hlp.1 hlp.2]
        exact hpos h (Or.inr (Or.inr ⟨m, rfl⟩))
  · cases hst
    refine ⟨base _ _ _ _ ?_ trivial hp.lchan, by simp, rfl⟩
    intro h' hh; simp at hh

theorem step_main {env : REnv} (ok : env.Ok) {H : Finset ℕ} {evs : List NEvent} {sent : List (ℕ × ROut)} {j : ℕ} {s s' : RState}
    (hp : PartyInv env H evs sent j s) (hst : onMain env s = some s') : PartyInv env H evs sent j s' ∧ s'.proposed = s.proposed := by
  have base : ∀ p d, MainOk env (Justified env H sent) s.maxN p → PartyInv env H evs sent j { s with mainPos := p, dead := d } :=
    fun p d h1 => ⟨hp.cnt, hp.tnodup, hp.tlt, hp.thon, hp.pos, hp.max, h1, hp.lchan, hp.lblk, hp.lpos⟩
  have hm := hp.mpos
  have hsz := ok.size
  unfold onMain at hst
  split at hst
  · split at hst
    · cases hst; exact ⟨base _ _ trivial, rfl⟩
    · cases hst
  · split at hst
    · cases hst; exact ⟨base _ _ trivial, rfl⟩
    · split at hst
      · cases hst
        refine ⟨base _ _ ?_, rfl⟩
        show env.F + 1 ≤ s.maxN
        omega
      · cases hst
  · rename_i hpe
    rw [hpe] at hm
    split at hst
    · split at hst
      · cases hst; exact ⟨base _ _ (by rw [hpe]; exact hm), rfl⟩
      · cases hst; exact ⟨base _ _ hm, rfl⟩
    · cases hst
  · rename_i hpe
    rw [hpe] at hm
    split at hst
    · cases hst; exact ⟨base _ _ (by rw [hpe]; exact hm), rfl⟩
    · cases hst; exact ⟨base _ _ hm, rfl⟩
  · rename_i hpe
    rw [hpe] at hm
    split at hst
    · cases hst; exact ⟨base _ _ (by rw [hpe]; exact hm), rfl⟩
    · cases hst; exact ⟨base _ _ ⟨hm, hp.max hm⟩, rfl⟩
  · rename_i r rec n v hpe
    rw [hpe] at hm
    obtain ⟨h1, h, h2, rfl⟩ := hm
    have hmax : env.F + 1 ≤ s.maxN → ∃ h', Justified env H sent h' ∧ (h.take 32).take 32 = h'.take 32 :=
      fun _ => ⟨h, h2, by rw [List.take_take, Nat.min_self]⟩
    simp only at hst
    split at hst
    · cases hst
      exact ⟨⟨hp.cnt, hp.tnodup, hp.tlt, hp.thon, hp.pos, hmax, h1, hp.lchan, hp.lblk, hp.lpos⟩, rfl⟩
    · cases hst
      exact ⟨⟨hp.cnt, hp.tnodup, hp.tlt, hp.thon, hp.pos, hmax, by rw [hpe]; exact ⟨h1, h, h2, rfl⟩, hp.lchan, hp.lblk, hp.lpos⟩, rfl⟩
  · rename_i r m hpe
    rw [hpe] at hm
    cases hst
    refine ⟨base _ _ ?_, rfl⟩
    split
    · rename_i he
      obtain ⟨h, h1, h2⟩ := hp.max hm
      refine ⟨h, h1, ?_⟩
      rw [← h2, he, List.take_of_length_le]
      rw [← he, ok.sha_len]
    · trivial
  · cases hst

/-! ## The network -/

theorem partyInv_init (env : REnv) (H : Finset ℕ) (j : ℕ) : PartyInv env H [] [] j RState.init where
  cnt := fun _ _ => rfl
  tnodup := fun _ => List.nodup_nil
  tlt := fun _ x hx => by cases hx
  thon := fun _ x hx => by cases hx
  pos := fun h hh => by simp [RState.init] at hh
  max := fun h => by simp [RState.init] at h
  mpos := trivial
  lchan := fun x hx => by cases hx
  lblk := fun _ _ h => by cases h
  lpos := trivial

/-- A step of party `j` in the network: what it sends and what becomes of its state. -/
theorem at_inv {env : REnv} {H : Finset ℕ} {evs : List NEvent} {e : NEvent} {net : RNet} {j : ℕ} {s' : RState} {out : List ROut}
    (hi : SentInv env H evs net) (hp : ∀ i ∈ H, PartyInv env H evs net.sent i (net.party i))
    (hj : PartyInv env H (evs ++ [e]) net.sent j s')
    (hne : ∀ i, i ≠ j → ∀ h m, echoesTo [e] i h m = [])
    (hauth : ∀ j' k s d', .deliver j' k s d' ∈ evs ++ [e] → s < env.N ∧ d'.length < 2 ^ 32 ∧ (s ∈ H → (s, (⟨j', k, d'⟩ : ROut)) ∈ net.sent))
    (hready : ∀ o ∈ out, o.kind = .ready → Justified env H net.sent (readyPayload o.data).hash)
    (hecho : (s'.proposed = (net.party j).proposed ∧ ∀ o ∈ out, o.kind ≠ .echo) ∨
      ((net.party j).proposed = false ∧ s'.proposed = true ∧ ∃ D src, .deliver j .propose src D ∈ evs ++ [e] ∧ ∀ o ∈ out, o.kind = .echo →
      ∃ sh, env.rs.encode D = some sh ∧ o.data = marshal (⟨echoHash env D, sh.getD o.dst []⟩ : PRBCEcho))) :
    SentInv env H (evs ++ [e]) ⟨fun i => if i = j then s' else net.party i, net.sent ++ out.map fun o => (j, o)⟩ ∧
    ∀ i ∈ H, PartyInv env H (evs ++ [e]) (net.sent ++ out.map fun o => (j, o)) i (if i = j then s' else net.party i) := by
  have hsub : net.sent ⊆ net.sent ++ out.map fun o => (j, o) := List.subset_append_left _ _
  have hmem : ∀ i o, (i, o) ∈ net.sent ++ out.map (fun o => (j, o)) → (i, o) ∈ net.sent ∨ (i = j ∧ o ∈ out) := by
    intro i o h
    rcases List.mem_append.1 h with h | h
    · exact Or.inl h
    · obtain ⟨o', h1, h2⟩ := List.mem_map.1 h
      cases h2
      exact Or.inr ⟨rfl, h1⟩
  refine ⟨⟨?_, ?_, ?_⟩, ?_⟩
  · intro j' k s d hd
    obtain ⟨h1, h2, h3⟩ := hauth j' k s d hd
    exact ⟨h1, h2, fun h => hsub (h3 h)⟩
  · intro i hiH
    by_cases hij : i = j
    · subst hij
      simp only [if_true]
      rcases hecho with ⟨h1, h2⟩ | ⟨h1, h2, D, src, h3, h4⟩
      · rcases hi.echo i hiH with ⟨h3, h4⟩ | ⟨h3, D, src, h4, h5⟩
        · refine Or.inl ⟨h1.trans h3, fun o ho => ?_⟩
          rcases hmem i o ho with ho | ⟨_, ho⟩
          · exact h4 o ho
          · exact h2 o ho
        · refine Or.inr ⟨h1.trans h3, D, src, List.mem_append_left _ h4, fun o ho hk => ?_⟩
          rcases hmem i o ho with ho | ⟨_, ho⟩
          · exact h5 o ho hk
          · exact absurd hk (h2 o ho)
      · rcases hi.echo i hiH with ⟨_, h5⟩ | ⟨h5, _⟩
        · refine Or.inr ⟨h2, D, src, h3, fun o ho hk => ?_⟩
          rcases hmem i o ho with ho | ⟨_, ho⟩
          · exact absurd hk (h5 o ho)
          · exact h4 o ho hk
        · rw [h1] at h5; cases h5
    · simp only [if_neg hij]
      rcases hi.echo i hiH with ⟨h3, h4⟩ | ⟨h3, D, src, h4, h5⟩
      · refine Or.inl ⟨h3, fun o ho => ?_⟩
        rcases hmem i o ho with ho | ⟨h, _⟩
        · exact h4 o ho
        · exact absurd h hij
      · refine Or.inr ⟨h3, D, src, List.mem_append_left _ h4, fun o ho hk => ?_⟩
        rcases hmem i o ho with ho | ⟨h, _⟩
        · exact h5 o ho hk
        · exact absurd h hij
  · intro i hiH o ho hk
    refine Justified.mono hsub ?_
    rcases hmem i o ho with ho | ⟨_, ho⟩
    · exact hi.ready i hiH o ho hk
    · exact hready o ho hk
  · intro i hiH
    by_cases hij : i = j
    · subst hij
      rw [if_pos rfl]
      exact hj.mono hsub (fun _ _ => rfl)
    · rw [if_neg hij]
      exact (hp i hiH).mono hsub (fun h m => by rw [echoesTo_snoc, hne i hij, List.append_nil])

theorem echoesTo_run (j : ℕ) (ev : REvent) (i : ℕ) (h m : Bytes) : echoesTo [.run j ev] i h m = [] := rfl

theorem mem_excl {N x : ℕ} {k : RKind} {d : Bytes} {o : ROut} (h : o ∈ rBroadcastExcl N x k d) : ∃ j, j < N ∧ j ≠ x ∧ o = ⟨j, k, d⟩ := by
  obtain ⟨h1, h2⟩ := List.mem_filter.1 h
  obtain ⟨j, hj, rfl⟩ := List.mem_map.1 h1
  exact ⟨j, List.mem_range.1 hj, by simpa using h2, rfl⟩

/-- The safety invariant of executions in which no Echo is counted twice. -/
theorem safe_inv {env : REnv} (ok : env.Ok) {H : Finset ℕ} (hH : HonestSet env H) {evs : List NEvent} {net : RNet} (hr : NRun env H RNet.init evs net) (hone : EchoOnce evs) :
    SentInv env H evs net ∧ ∀ j ∈ H, PartyInv env H evs net.sent j (net.party j) := by
  induction hr with
  | nil =>
    refine ⟨⟨fun _ _ _ _ h => (by cases h), fun s _ => Or.inl ⟨rfl, fun o h => (by cases h)⟩, fun _ _ _ h => (by cases h)⟩, fun j _ => partyInv_init env H j⟩
  | @snoc evs net ev net' hrun hs ih =>
    obtain ⟨hi, hp⟩ := ih hone.init
    cases ev with
    | send b M =>
      simp only [netStep] at hs
      split at hs
      · cases hs
        have hmem : ∀ i o, (i, o) ∈ net.sent ++ (rBroadcast env.N .propose (marshal M)).map (fun o => (b, o)) → (i, o) ∈ net.sent ∨ o.kind = .propose := by
          intro i o h
          rcases List.mem_append.1 h with h | h
          · exact Or.inl h
          · simp only [rBroadcast, List.map_map, List.mem_map, Function.comp] at h
            obtain ⟨k, _, h2⟩ := h
            cases h2
            exact Or.inr rfl
        have hsub : net.sent ⊆ net.sent ++ (rBroadcast env.N .propose (marshal M)).map (fun o => (b, o)) := List.subset_append_left _ _
        have hev : ∀ j k s d, NEvent.deliver j k s d ∈ evs ++ [.send b M] → NEvent.deliver j k s d ∈ evs := by
          intro j k s d h
          simpa using h
        refine ⟨⟨?_, ?_, ?_⟩, ?_⟩
        · intro j k s d hd
          obtain ⟨h1, h2, h3⟩ := hi.auth j k s d (hev j k s d hd)
          exact ⟨h1, h2, fun h => hsub (h3 h)⟩
        · intro i hiH
          rcases hi.echo i hiH with ⟨h3, h4⟩ | ⟨h3, D, src, h4, h5⟩
          · refine Or.inl ⟨h3, fun o ho => ?_⟩
            rcases hmem i o ho with ho | h
            · exact h4 o ho
            · rw [h]; simp
          · refine Or.inr ⟨h3, D, src, List.mem_append_left _ h4, fun o ho hk => ?_⟩
            rcases hmem i o ho with ho | h
            · exact h5 o ho hk
            · rw [h] at hk; cases hk
        · intro i hiH o ho hk
          refine Justified.mono hsub ?_
          rcases hmem i o ho with ho | h
          · exact hi.ready i hiH o ho hk
          · rw [h] at hk; cases hk
        · intro j hj
          exact (hp j hj).mono hsub (fun h m => by rw [echoesTo_snoc]; simp [echoesTo])
      · cases hs
    | sendExcl b M x =>
      simp only [netStep] at hs
      split at hs
      · cases hs
        have hmem : ∀ i o, (i, o) ∈ net.sent ++ (rBroadcastExcl env.N x .propose (marshal M)).map (fun o => (b, o)) → (i, o) ∈ net.sent ∨ o.kind = .propose := by
          intro i o h
          rcases List.mem_append.1 h with h | h
          · exact Or.inl h
          · obtain ⟨o', h1, h2⟩ := List.mem_map.1 h
            cases h2
            obtain ⟨_, _, _, rfl⟩ := mem_excl h1
            exact Or.inr rfl
        have hsub : net.sent ⊆ net.sent ++ (rBroadcastExcl env.N x .propose (marshal M)).map (fun o => (b, o)) := List.subset_append_left _ _
        have hev : ∀ j k s d, NEvent.deliver j k s d ∈ evs ++ [.sendExcl b M x] → NEvent.deliver j k s d ∈ evs := by
          intro j k s d h
          simpa using h
        refine ⟨⟨?_, ?_, ?_⟩, ?_⟩
        · intro j k s d hd
          obtain ⟨h1, h2, h3⟩ := hi.auth j k s d (hev j k s d hd)
          exact ⟨h1, h2, fun h => hsub (h3 h)⟩
        · intro i hiH
          rcases hi.echo i hiH with ⟨h3, h4⟩ | ⟨h3, D, src, h4, h5⟩
          · refine Or.inl ⟨h3, fun o ho => ?_⟩
            rcases hmem i o ho with ho | h
            · exact h4 o ho
            · rw [h]; simp
          · refine Or.inr ⟨h3, D, src, List.mem_append_left _ h4, fun o ho hk => ?_⟩
            rcases hmem i o ho with ho | h
            · exact h5 o ho hk
            · rw [h] at hk; cases hk
        · intro i hiH o ho hk
          refine Justified.mono hsub ?_
          rcases hmem i o ho with ho | h
          · exact hi.ready i hiH o ho hk
          · rw [h] at hk; cases hk
        · intro j hj
          exact (hp j hj).mono hsub (fun h m => by rw [echoesTo_snoc]; simp [echoesTo])
      · cases hs
    | deliver j k src d =>
      simp only [netStep] at hs
      split at hs
      · rename_i hg
        obtain ⟨hjH, hsrc, hdl, hau⟩ := hg
        have hauth : ∀ j' k' s d', .deliver j' k' s d' ∈ evs ++ [NEvent.deliver j k src d] → s < env.N ∧ d'.length < 2 ^ 32 ∧ (s ∈ H → (s, (⟨j', k', d'⟩ : ROut)) ∈ net.sent) := by
          intro j' k' s d' h
          rcases List.mem_append.1 h with h | h
          · exact hi.auth _ _ _ _ h
          · cases List.mem_singleton.1 h
            exact ⟨hsrc, hdl, hau⟩
        have hne : ∀ i, i ≠ j → ∀ h m, echoesTo [NEvent.deliver j k src d] i h m = [] := by
          intro i hij h m
          cases k <;> simp [echoesTo, Ne.symm hij]
        have hpj := hp j hjH
        simp only [RNet.at_, Option.map_eq_some_iff, Prod.exists] at hs
        obtain ⟨s', out, hst, rfl⟩ := hs
        simp only [rbcStep] at hst
        split at hst
        · cases hst
        cases k with
        | propose =>
          simp only [deliverEvent] at hst
          have hadd : ∀ dd, PartyInv env H (evs ++ [NEvent.deliver j .propose src d]) net.sent j { net.party j with proposed := true, dead := dd } := fun dd =>
            PartyInv.mono (evs := evs) ⟨hpj.cnt, hpj.tnodup, hpj.tlt, hpj.thon, hpj.pos, hpj.max, hpj.mpos, hpj.lchan, hpj.lblk, hpj.lpos⟩ (fun _ h => h)
              (fun h m => by rw [echoesTo_snoc]; simp [echoesTo])
          split at hst
          · cases hst
          · rename_i hpr
            split at hst
            · cases hst
              refine at_inv hi hp (hadd _) hne hauth (by simp) (Or.inr ⟨by simpa using hpr, rfl, d, src, by simp, by simp⟩)
            · rename_i sh hsh
              cases hst
              refine at_inv hi hp (hadd _) hne hauth ?_ (Or.inr ⟨by simpa using hpr, rfl, d, src, by simp, ?_⟩)
              · intro o ho hk
                obtain ⟨i, _, rfl⟩ := List.mem_map.1 ho
                cases hk
              · intro o ho _
                obtain ⟨i, _, rfl⟩ := List.mem_map.1 ho
                exact ⟨sh, hsh, rfl⟩
        | echo =>
          simp only [deliverEvent] at hst
          split at hst
          · obtain ⟨h1, h2, h3⟩ := step_echo hpj hauth hone
            have e := Option.some.inj hst
            rw [e] at h1 h2 h3
            refine at_inv hi hp h1 hne hauth (fun o ho _ => (h2 o ho).2) (Or.inl ⟨h3, fun o ho => ?_⟩)
            rw [(h2 o ho).1]; simp
          · cases hst
        | ready =>
          simp only [deliverEvent] at hst
          split at hst
          · cases hst
            obtain ⟨h1, h2⟩ := step_ready ok hH hpj hi hsrc hdl hau
            refine at_inv hi hp (h1.mono (fun _ h => h) (fun h m => by rw [echoesTo_snoc]; simp [echoesTo])) hne hauth (by simp) (Or.inl ⟨h2, by simp⟩)
          · cases hst
      · cases hs
    | run j ev =>
      simp only [netStep] at hs
      split at hs
      · rename_i hg
        obtain ⟨hjH, hint⟩ := hg
        have hauth : ∀ j' k' s d', .deliver j' k' s d' ∈ evs ++ [NEvent.run j ev] → s < env.N ∧ d'.length < 2 ^ 32 ∧ (s ∈ H → (s, (⟨j', k', d'⟩ : ROut)) ∈ net.sent) := by
          intro j' k' s d' h
          exact hi.auth _ _ _ _ (by simpa using h)
        have hne : ∀ i, i ≠ j → ∀ h m, echoesTo [NEvent.run j ev] i h m = [] := fun i _ h m => rfl
        have hmono : ∀ s', PartyInv env H evs net.sent j s' → PartyInv env H (evs ++ [NEvent.run j ev]) net.sent j s' := fun s' h =>
          h.mono (fun _ h => h) (fun h m => by rw [echoesTo_snoc, echoesTo_run, List.append_nil])
        have hpj := hp j hjH
        simp only [RNet.at_, Option.map_eq_some_iff, Prod.exists] at hs
        obtain ⟨s', out, hst, rfl⟩ := hs
        simp only [rbcStep] at hst
        split at hst
        · cases hst
        cases ev with
        | propose => cases hint
        | echo => cases hint
        | ready => cases hint
        | echoPush =>
          simp only at hst
          split at hst
          · rename_i h m hb
            split at hst
            · cases hst
              refine at_inv hi hp (hmono _ ⟨hpj.cnt, hpj.tnodup, hpj.tlt, hpj.thon, hpj.pos, hpj.max, hpj.mpos, ?_, ?_, hpj.lpos⟩) hne hauth (by simp) (Or.inl ⟨rfl, by simp⟩)
              · intro x hx
                rcases List.mem_append.1 hx with h1 | h1
                · exact hpj.lchan x h1
                · rw [List.mem_singleton.1 h1]; exact hpj.lblk h m hb
              · intro h' m' hb'; simp only at hb'; split at hb' <;> cases hb'
            · cases hst
          · cases hst
        | echoQuit =>
          simp only at hst
          split at hst
          · cases hst
            refine at_inv hi hp (hmono _ ⟨hpj.cnt, hpj.tnodup, hpj.tlt, hpj.thon, hpj.pos, hpj.max, hpj.mpos, hpj.lchan, ?_, hpj.lpos⟩) hne hauth (by simp) (Or.inl ⟨rfl, by simp⟩)
            intro h' m' hb'; cases hb'
          · cases hst
        | readyStep =>
          simp only at hst
          obtain ⟨h1, h2, h3⟩ := step_readyStep ok hH hpj hi hst
          refine at_inv hi hp (hmono _ h1) hne hauth (fun o ho _ => (h2 o ho).2) (Or.inl ⟨h3, fun o ho => ?_⟩)
          rw [(h2 o ho).1]; simp
        | main =>
          simp only [Option.map_eq_some_iff, Prod.mk.injEq] at hst
          obtain ⟨s'', hst, rfl, rfl⟩ := hst
          obtain ⟨h1, h2⟩ := step_main ok hpj hst
          exact at_inv hi hp (hmono _ h1) hne hauth (by simp) (Or.inl ⟨h2, by simp⟩)
      · cases hs

end DyCAPS

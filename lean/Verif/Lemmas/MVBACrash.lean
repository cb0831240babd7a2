import Verif.Lemmas.MVBA

/-!
# Agreement across rounds when no party is corrupt

All parties follow the protocol (they may stop at any time and messages may be delayed or lost), messages carry their true sender and are not delivered twice.
-/

namespace DyCAPS

/-- What is used of the threshold signature scheme: shares of parties are accepted with the party's index, and `Recover` yields one and the same valid signature from any `2F+1` or more
accepted shares with distinct indices. -/
structure SchemeOk (env : MEnv) (full : SMsg → Bytes) : Prop where
  share_sign : ∀ i < env.N, ∀ m, env.share m (env.sign i m) = some i
  cert_full : ∀ m, env.cert m (full m) = true
  recover_full : ∀ m sigs (L : List ℕ), sigs.map (env.share m) = L.map some → L.Nodup → 2 * env.F + 1 ≤ L.length → env.recover m sigs = some (full m)

def MMsg.rnd : MMsg → ℕ
  | .value r _ _ _ _ => r
  | .echo r _ _ _ => r
  | .finish r _ _ => r
  | .done r _ => r
  | .halt r _ _ => r
  | .prevote r _ _ _ => r
  | .vote r _ _ _ _ => r

/-- Changes of a round's variables that keep what signatures and messages say about it. -/
structure RLe (R R' : MRound) : Prop where
  prop : R'.prop = R.prop
  recv : ∀ j, R.recv j = .ended → R'.recv j = .ended ∧ R'.lock j = R.lock j
  leader : ∀ l, R.leader = some l → R'.leader = some l
  pvOut : ∀ x, R.pvOut = some x → R'.pvOut = some x
  voted : R.voted = true → R'.voted = true
  spawned : R.voteSpawned = true → R'.voteSpawned = true

theorem RLe.refl (R : MRound) : RLe R R := ⟨rfl, fun _ h => ⟨h, rfl⟩, fun _ h => h, fun _ h => h, id, id⟩

/-- What a party's signature tells about its state. -/
def GoodSign (env : MEnv) (sent : List (ℕ × MMsg)) (R : MRound) : SMsg → Prop
  | .echo r j stage h =>
    (stage = 1 → ∃ v val, (j, MMsg.value r j 1 v val) ∈ sent ∧ env.hash v = h) ∧
    (stage = 2 → (R.recv j = .ended ∧ ∃ v val, R.lock j = some (v, val) ∧ env.hash v = h) ∨ (R.voted = true ∧ R.leader = some j ∧ ∃ v sig, R.pvOut = some (.yes v sig) ∧ env.hash v = h))
  | .done _ => True
  | .no _ => R.voteSpawned = true ∧ ∃ l, R.leader = some l ∧ R.recv l = .ended ∧ R.lock l = none
  | .unlock _ => R.voted = true ∧ ∃ sig, R.pvOut = some (.no sig)

/-- What a party's message tells about its state. -/
def GoodSent (env : MEnv) (i : ℕ) (R : MRound) : MMsg → Prop
  | .value _ j _ v _ => j = i ∧ v = R.prop.1
  | .done r sh => sh = env.sign i (.done r)
  | .prevote r yes v sig => yes = false → v = [] ∧ sig = env.sign i (.no r)
  | .vote r yes v sig sh => R.voted = true ∧ ∃ l, R.leader = some l ∧
      ((yes = true ∧ R.pvOut = some (.yes v sig) ∧ sh = env.sign i (.echo r l 2 (env.hash v))) ∨ (yes = false ∧ v = [] ∧ R.pvOut = some (.no sig) ∧ sh = env.sign i (.unlock r)))
  | _ => True

theorem GoodSign.mono {env : MEnv} {t t' : List (ℕ × MMsg)} {R R' : MRound} (ht : ∀ x ∈ t, x ∈ t') (hR : RLe R R') : ∀ {m : SMsg}, GoodSign env t R m → GoodSign env t' R' m
  | .echo r j stage h, ⟨h1, h2⟩ => by
    refine ⟨fun hs => ?_, fun hs => ?_⟩
    · obtain ⟨v, val, a, b⟩ := h1 hs; exact ⟨v, val, ht _ a, b⟩
    · rcases h2 hs with ⟨a, v, val, b, c⟩ | ⟨a, b, v, sig, c, d⟩
      · exact Or.inl ⟨(hR.recv j a).1, v, val, by rw [(hR.recv j a).2]; exact b, c⟩
      · exact Or.inr ⟨hR.voted a, hR.leader _ b, v, sig, hR.pvOut _ c, d⟩
  | .done _, _ => trivial
  | .no _, ⟨a, l, b, c, d⟩ => ⟨hR.spawned a, l, hR.leader l b, (hR.recv l c).1, by rw [(hR.recv l c).2]; exact d⟩
  | .unlock _, ⟨a, sig, b⟩ => ⟨hR.voted a, sig, hR.pvOut _ b⟩

theorem GoodSent.mono {env : MEnv} {i : ℕ} {R R' : MRound} (hR : RLe R R') : ∀ {m : MMsg}, GoodSent env i R m → GoodSent env i R' m
  | .value _ j _ v _, ⟨a, b⟩ => ⟨a, by rw [hR.prop]; exact b⟩
  | .echo _ _ _ _, _ => trivial
  | .finish _ _ _, _ => trivial
  | .done _ _, h => h
  | .halt _ _ _, _ => trivial
  | .prevote _ _ _ _, h => h
  | .vote _ _ _ _ _, ⟨a, l, b, c⟩ => ⟨hR.voted a, l, hR.leader l b, c.imp (fun x => ⟨x.1, hR.pvOut _ x.2.1, x.2.2⟩) (fun x => ⟨x.1, x.2.1, hR.pvOut _ x.2.2.1, x.2.2.2⟩)⟩

/-- Signatures and messages of party `i` in round `r`. -/
structure CSig (env : MEnv) (i : ℕ) (s : List (ℕ × SMsg)) (t : List (ℕ × MMsg)) (r : ℕ) (R : MRound) : Prop where
  sign : ∀ m, (i, m) ∈ s → m.rnd = r → GoodSign env t R m
  sent : ∀ m, (i, m) ∈ t → m.rnd = r → GoodSent env i R m

theorem CSig.grow {env : MEnv} {i : ℕ} {s s' : List (ℕ × SMsg)} {t t' : List (ℕ × MMsg)} {r : ℕ} {R R' : MRound} (h : CSig env i s t r R) (hR : RLe R R')
    (ht : ∀ x ∈ t, x ∈ t') (hns : ∀ m, (i, m) ∈ s' → m.rnd = r → (i, m) ∈ s ∨ GoodSign env t' R' m)
    (hnt : ∀ m, (i, m) ∈ t' → m.rnd = r → (i, m) ∈ t ∨ GoodSent env i R' m) : CSig env i s' t' r R' where
  sign m hm hr := (hns m hm hr).elim (fun a => (h.sign m a hr).mono ht hR) id
  sent m hm hr := (hnt m hm hr).elim (fun a => (h.sent m a hr).mono hR) id

/-- The lists a party counts in round `r`. -/
structure CList (env : MEnv) (i : ℕ) (s : List (ℕ × SMsg)) (d : List (ℕ × ℕ × MMsg)) (r : ℕ) (R : MRound) : Prop where
  coins : ∃ L : List ℕ, L.Nodup ∧ R.coins = L.map (fun k => env.sign k (.done r)) ∧ ∀ k ∈ L, k < env.N ∧ ∃ sh, (i, k, MMsg.done r sh) ∈ d
  pn : ∃ L : List ℕ, L.Nodup ∧ R.PNr.length = L.length ∧ ∀ k ∈ L, k < env.N ∧ (k, SMsg.no r) ∈ s ∧ ∃ v sig, (i, k, MMsg.prevote r false v sig) ∈ d
  vn : ∃ L : List ℕ, L.Nodup ∧ R.VNr.length = L.length ∧ ∀ k ∈ L, k < env.N ∧ (k, SMsg.unlock r) ∈ s ∧ ∃ v sig sh, (i, k, MMsg.vote r false v sig sh) ∈ d
  vy : ∃ L : List ℕ, L.Nodup ∧ R.VYr.length = L.length ∧ ∀ k ∈ L, k < env.N ∧ (∃ v sig sh, (i, k, MMsg.vote r true v sig sh) ∈ d) ∧
    ∃ l v, R.leader = some l ∧ (k, SMsg.echo r l 2 (env.hash v)) ∈ s
  pvNo : ∀ sig, R.pvOut = some (.no sig) → 2 * env.F + 1 ≤ R.PNr.length
  voYes : ∀ v sig, R.voteOut = some (.yes v sig) → 2 * env.F + 1 ≤ R.VYr.length
  voNo : ∀ sig, R.voteOut = some (.no sig) → 2 * env.F + 1 ≤ R.VNr.length

theorem CList.grow {env : MEnv} {i : ℕ} {s s' : List (ℕ × SMsg)} {d d' : List (ℕ × ℕ × MMsg)} {r : ℕ} {R R' : MRound} (h : CList env i s d r R) (hs : ∀ x ∈ s, x ∈ s')
    (hd : ∀ x ∈ d, x ∈ d') (h1 : R'.coins = R.coins) (h2 : R'.PNr = R.PNr) (h3 : R'.VNr = R.VNr) (h4 : R'.VYr = R.VYr) (h5 : R'.pvOut = R.pvOut) (h6 : R'.voteOut = R.voteOut)
    (h7 : ∀ l, R.leader = some l → R'.leader = some l) : CList env i s' d' r R' where
  coins := by
    obtain ⟨L, a, b, c⟩ := h.coins
    exact ⟨L, a, by rw [h1]; exact b, fun k hk => ⟨(c k hk).1, (c k hk).2.imp fun _ => hd _⟩⟩
  pn := by
    obtain ⟨L, a, b, c⟩ := h.pn
    refine ⟨L, a, by rw [h2]; exact b, fun k hk => ?_⟩
    obtain ⟨x, y, v, sig, z⟩ := c k hk
    exact ⟨x, hs _ y, v, sig, hd _ z⟩
  vn := by
    obtain ⟨L, a, b, c⟩ := h.vn
    refine ⟨L, a, by rw [h3]; exact b, fun k hk => ?_⟩
    obtain ⟨x, y, v, sig, sh, z⟩ := c k hk
    exact ⟨x, hs _ y, v, sig, sh, hd _ z⟩
  vy := by
    obtain ⟨L, a, b, c⟩ := h.vy
    refine ⟨L, a, by rw [h4]; exact b, fun k hk => ?_⟩
    obtain ⟨x, ⟨v, sig, sh, z⟩, l, w, e, f⟩ := c k hk
    exact ⟨x, ⟨v, sig, sh, hd _ z⟩, l, w, h7 l e, hs _ f⟩
  pvNo := by rw [h5, h2]; exact h.pvNo
  voYes := by rw [h6, h4]; exact h.voYes
  voNo := by rw [h6, h3]; exact h.voNo

theorem CList.init (env : MEnv) (i : ℕ) (s : List (ℕ × SMsg)) (d : List (ℕ × ℕ × MMsg)) (r : ℕ) (v val : Bytes) : CList env i s d r (MRound.init v val) :=
  ⟨⟨[], by simp [MRound.init]⟩, ⟨[], by simp [MRound.init]⟩, ⟨[], by simp [MRound.init]⟩, ⟨[], by simp [MRound.init]⟩, by simp [MRound.init], by simp [MRound.init], by simp [MRound.init]⟩

/-- What holds of party `i`. -/
structure CParty (env : MEnv) (i : ℕ) (s : List (ℕ × SMsg)) (t : List (ℕ × MMsg)) (d : List (ℕ × ℕ × MMsg)) (st : MState) : Prop where
  sig : ∀ r, CSig env i s t r (st.rounds r)
  lst : ∀ r, CList env i s d r (st.rounds r)
  past : ∀ m, (i, m) ∈ t → m.rnd ≤ st.round
  next : ∀ r < st.round, ((∃ sig, (st.rounds r).voteOut = some (.no sig)) ∧ (st.rounds (r + 1)).prop.1 = (st.rounds r).prop.1) ∨
    (∃ v sig, (st.rounds r).voteOut = some (.other v sig) ∧ (st.rounds (r + 1)).prop.1 = v)
  value : st.value = (st.rounds st.round).prop.1

/-- The logs after a step of party `i`. -/
structure Logs (i : ℕ) (s : List (ℕ × SMsg)) (t : List (ℕ × MMsg)) (d : List (ℕ × ℕ × MMsg)) (new : List SMsg) (msgs : List MMsg) (dl : List (ℕ × ℕ × MMsg))
    (s' : List (ℕ × SMsg)) (t' : List (ℕ × MMsg)) (d' : List (ℕ × ℕ × MMsg)) : Prop where
  s_eq : s' = s ++ new.map fun m => (i, m)
  t_eq : t' = t ++ msgs.map fun m => (i, m)
  d_eq : d' = d ++ dl

theorem Logs.sub_s {i : ℕ} {s t d new msgs dl s' t' d'} (h : Logs i s t d new msgs dl s' t' d') : ∀ x ∈ s, x ∈ s' := by rw [h.s_eq]; exact fun x hx => List.mem_append_left _ hx
theorem Logs.sub_t {i : ℕ} {s t d new msgs dl s' t' d'} (h : Logs i s t d new msgs dl s' t' d') : ∀ x ∈ t, x ∈ t' := by rw [h.t_eq]; exact fun x hx => List.mem_append_left _ hx
theorem Logs.sub_d {i : ℕ} {s t d new msgs dl s' t' d'} (h : Logs i s t d new msgs dl s' t' d') : ∀ x ∈ d, x ∈ d' := by rw [h.d_eq]; exact fun x hx => List.mem_append_left _ hx
theorem Logs.mem_s {i : ℕ} {s t d new msgs dl s' t' d'} (h : Logs i s t d new msgs dl s' t' d') {m : SMsg} (hm : (i, m) ∈ s') : (i, m) ∈ s ∨ m ∈ new := by
  rw [h.s_eq, List.mem_append] at hm
  refine hm.imp id fun hm => ?_
  obtain ⟨m', a, b⟩ := List.mem_map.1 hm
  cases b; exact a
theorem Logs.mem_t {i : ℕ} {s t d new msgs dl s' t' d'} (h : Logs i s t d new msgs dl s' t' d') {m : MMsg} (hm : (i, m) ∈ t') : (i, m) ∈ t ∨ m ∈ msgs := by
  rw [h.t_eq, List.mem_append] at hm
  refine hm.imp id fun hm => ?_
  obtain ⟨m', a, b⟩ := List.mem_map.1 hm
  cases b; exact a

/-- A step that changes round `r` only. -/
theorem CParty.setRound {env : MEnv} {i : ℕ} {s t d new msgs dl s' t' d'} {st : MState} (h : CParty env i s t d st) (hL : Logs i s t d new msgs dl s' t' d') {r : ℕ} (hr : r ≤ st.round)
    {R : MRound} (hR : RLe (st.rounds r) R) (hv : ∀ x, (st.rounds r).voteOut = some x → R.voteOut = some x)
    (hnew : ∀ m ∈ new, m.rnd = r ∧ GoodSign env t' R m) (hmsg : ∀ m ∈ msgs, m.rnd = r ∧ GoodSent env i R m) (hc : CList env i s' d' r R) : CParty env i s' t' d' (st.setRound r R) := by
  have hprop : ∀ r', ((st.setRound r R).rounds r').prop = (st.rounds r').prop := by
    intro r'
    rw [setRound_rounds]
    split
    · rename_i e; rw [e, hR.prop]
    · rfl
  have hvo : ∀ r' x, (st.rounds r').voteOut = some x → ((st.setRound r R).rounds r').voteOut = some x := by
    intro r' x hx
    rw [setRound_rounds]
    split
    · rename_i e; subst e; exact hv x hx
    · exact hx
  refine ⟨fun r' => ?_, fun r' => ?_, fun m hm => ?_, fun r' hr' => ?_, ?_⟩
  · rw [setRound_rounds]
    split
    · rename_i e; subst e
      exact (h.sig r').grow hR hL.sub_t (fun m hm _ => (hL.mem_s hm).imp id fun a => (hnew m a).2) (fun m hm _ => (hL.mem_t hm).imp id fun a => (hmsg m a).2)
    · rename_i e
      exact (h.sig r').grow (RLe.refl _) hL.sub_t (fun m hm he => (hL.mem_s hm).imp id fun a => absurd (he.symm.trans (hnew m a).1) e)
        (fun m hm he => (hL.mem_t hm).imp id fun a => absurd (he.symm.trans (hmsg m a).1) e)
  · rw [setRound_rounds]
    split
    · rename_i e; subst e; exact hc
    · exact (h.lst r').grow hL.sub_s hL.sub_d rfl rfl rfl rfl rfl rfl fun _ h => h
  · rcases hL.mem_t hm with hm | hm
    · exact h.past m hm
    · rw [(hmsg m hm).1]; exact hr
  · rw [hprop, hprop]
    rcases h.next r' hr' with ⟨⟨sig, a⟩, b⟩ | ⟨v, sig, a, b⟩
    · exact Or.inl ⟨⟨sig, hvo _ _ a⟩, b⟩
    · exact Or.inr ⟨v, sig, hvo _ _ a, b⟩
  · rw [setRound_round, hprop]; exact h.value

theorem CParty.congr {env : MEnv} {i : ℕ} {s t d} {st st' : MState} (h : CParty env i s t d st) (h1 : st'.rounds = st.rounds) (h2 : st'.round = st.round) (h3 : st'.value = st.value) :
    CParty env i s t d st' := by
  obtain ⟨a, b, c, e, f⟩ := h
  exact ⟨by rw [h1]; exact a, by rw [h1]; exact b, by rw [h2]; exact c, by rw [h1, h2]; exact e, by rw [h1, h2, h3]; exact f⟩

/-- A step that changes no round variables; it may send messages of round `r` without content for the invariant. -/
theorem CParty.idle {env : MEnv} {i : ℕ} {s t d msgs dl s' t' d'} {st : MState} (h : CParty env i s t d st) (hL : Logs i s t d [] msgs dl s' t' d')
    (hmsg : ∀ m ∈ msgs, m.rnd ≤ st.round ∧ ∀ R, GoodSent env i R m) : CParty env i s' t' d' st := by
  refine ⟨fun r' => ?_, fun r' => ?_, fun m hm => ?_, h.next, h.value⟩
  · exact (h.sig r').grow (RLe.refl _) hL.sub_t (fun m hm _ => (hL.mem_s hm).imp id fun a => by simp at a) (fun m hm _ => (hL.mem_t hm).imp id fun a => (hmsg m a).2 _)
  · exact (h.lst r').grow hL.sub_s hL.sub_d rfl rfl rfl rfl rfl rfl fun _ h => h
  · rcases hL.mem_t hm with hm | hm
    · exact h.past m hm
    · exact (hmsg m hm).1

/-- Steps of others. -/
theorem CParty.others {env : MEnv} {i k : ℕ} (hik : k ≠ i) {s t d new msgs dl s' t' d'} {st : MState} (h : CParty env k s t d st) (hL : Logs i s t d new msgs dl s' t' d') :
    CParty env k s' t' d' st := by
  have hs : ∀ m, (k, m) ∈ s' → (k, m) ∈ s := by
    intro m hm
    rw [hL.s_eq, List.mem_append] at hm
    rcases hm with hm | hm
    · exact hm
    · obtain ⟨m', a, b⟩ := List.mem_map.1 hm
      cases b; exact absurd rfl hik
  have ht : ∀ m, (k, m) ∈ t' → (k, m) ∈ t := by
    intro m hm
    rw [hL.t_eq, List.mem_append] at hm
    rcases hm with hm | hm
    · exact hm
    · obtain ⟨m', a, b⟩ := List.mem_map.1 hm
      cases b; exact absurd rfl hik
  refine ⟨fun r' => ?_, fun r' => ?_, fun m hm => h.past m (ht m hm), h.next, h.value⟩
  · exact (h.sig r').grow (RLe.refl _) hL.sub_t (fun m hm _ => Or.inl (hs m hm)) (fun m hm _ => Or.inl (ht m hm))
  · exact (h.lst r').grow hL.sub_s hL.sub_d rfl rfl rfl rfl rfl rfl fun _ h => h

/-- The context of a received message. -/
structure Recvd (env : MEnv) (H : Finset ℕ) (i : ℕ) (s : List (ℕ × SMsg)) (t : List (ℕ × MMsg)) (d : List (ℕ × ℕ × MMsg)) (party : ℕ → MState) (q : ℕ) (m : MMsg) : Prop where
  lt : q < env.N
  hon : q ∈ H
  sent : (q, m) ∈ t
  fresh : (i, q, m) ∉ d
  gen : ∀ b ∈ m.sigs, Genuine env H s b
  log : ∀ k m', (i, k, m') ∈ d → (k, m') ∈ t
  sig : CSig env q s t m.rnd ((party q).rounds m.rnd)

theorem CParty.onValue {env : MEnv} {H : Finset ℕ} {i : ℕ} {s t d new msgs dl s' t' d'} {party : ℕ → MState} {st : MState} (h : CParty env i s t d st)
    {r j stage q : ℕ} {v val : Bytes} {o : MOut} (hq : Recvd env H i s t d party q (.value r j stage v val))
    (ho : onValue env st r j stage v val = some o) (hn : new = o.signed) (hm : msgs = o.msgs ++ o.signed.flatMap (echoOf env i)) (hL : Logs i s t d new msgs dl s' t' d') :
    CParty env i s' t' d' o.st := by
  unfold DyCAPS.onValue at ho
  simp only at ho
  split at ho
  · rename_i hr
    split at ho
    · rename_i hpos
      cases ho
      simp only at hn hm
      obtain ⟨e, -⟩ := hq.sig.sent _ hq.sent rfl
      have hle : RLe (st.rounds r) { st.rounds r with recv := fun j' => if j' = j then .second else (st.rounds r).recv j' } := by
        refine ⟨rfl, fun j' hj' => ⟨?_, rfl⟩, fun _ h => h, fun _ h => h, id, id⟩
        simp only
        rw [if_neg]
        · exact hj'
        · rintro rfl; rw [hpos] at hj'; cases hj'
      refine h.setRound hL hr.1 hle (fun _ h => h) ?_ ?_ ((h.lst r).grow hL.sub_s hL.sub_d rfl rfl rfl rfl rfl rfl fun _ h => h)
      · rw [hn]
        intro m hm'
        rw [List.mem_singleton] at hm'
        subst hm'
        refine ⟨rfl, fun _ => ⟨v, val, ?_, rfl⟩, by simp⟩
        have := hL.sub_t _ hq.sent
        rw [← e] at this
        exact this
      · rw [hm]
        intro m hm'
        simp only [echoOf, List.flatMap_cons, List.flatMap_nil, List.append_nil, List.nil_append, List.mem_singleton] at hm'
        subst hm'
        exact ⟨rfl, trivial⟩
    · rename_i hpos
      split at ho
      · cases ho
        simp only at hn hm
        refine h.setRound hL hr.1 ⟨rfl, fun j' hj' => ?_, fun _ h => h, fun _ h => h, id, id⟩ (fun _ h => h) ?_ ?_
          ((h.lst r).grow hL.sub_s hL.sub_d rfl rfl rfl rfl rfl rfl fun _ h => h)
        · have hne : j' ≠ j := by rintro rfl; rw [hpos] at hj'; cases hj'
          simp only
          rw [if_neg hne, if_neg hne]
          exact ⟨hj', rfl⟩
        · rw [hn]
          intro m hm'
          rw [List.mem_singleton] at hm'
          subst hm'
          refine ⟨rfl, by simp, fun _ => Or.inl ⟨by simp, v, val, by simp, rfl⟩⟩
        · rw [hm]
          intro m hm'
          simp only [echoOf, List.flatMap_cons, List.flatMap_nil, List.append_nil, List.nil_append, List.mem_singleton] at hm'
          subst hm'
          exact ⟨rfl, trivial⟩
      · cases ho
        simp only [List.flatMap_nil, List.append_nil] at hn hm
        subst hn hm
        exact (h.idle hL (by simp)).congr rfl rfl rfl
    · cases ho
  · cases ho

/-- Steps on variables the invariant does not mention. -/
theorem CParty.silent {env : MEnv} {i : ℕ} {s t d msgs dl s' t' d'} {st : MState} (h : CParty env i s t d st) (hL : Logs i s t d [] msgs dl s' t' d') {r : ℕ} (hr : r ≤ st.round)
    {R : MRound} (h0 : R.prop = (st.rounds r).prop) (h1 : R.recv = (st.rounds r).recv) (h2 : R.lock = (st.rounds r).lock) (h3 : R.leader = (st.rounds r).leader)
    (h4 : R.pvOut = (st.rounds r).pvOut) (h5 : R.voted = (st.rounds r).voted) (h6 : R.voteSpawned = (st.rounds r).voteSpawned)
    (c1 : R.coins = (st.rounds r).coins) (c2 : R.PNr = (st.rounds r).PNr) (c3 : R.VNr = (st.rounds r).VNr) (c4 : R.VYr = (st.rounds r).VYr) (c5 : R.voteOut = (st.rounds r).voteOut)
    (hmsg : ∀ m ∈ msgs, m.rnd = r ∧ GoodSent env i R m) : CParty env i s' t' d' (st.setRound r R) :=
  h.setRound hL hr ⟨h0, fun j hj => by rw [h1, h2]; exact ⟨hj, rfl⟩, by rw [h3]; exact fun _ h => h, by rw [h4]; exact fun _ h => h, by rw [h5]; exact id, by rw [h6]; exact id⟩
    (by rw [c5]; exact fun _ h => h) (by simp) hmsg ((h.lst r).grow hL.sub_s hL.sub_d c1 c2 c3 c4 h4 c5 (by rw [h3]; exact fun _ h => h))

theorem CParty.onEchoShare {env : MEnv} {i : ℕ} {s t d dl s' t' d'} {st : MState} (h : CParty env i s t d st)
    {r j stage : ℕ} {sh : Bytes} {o : MOut} (ho : onEchoShare env i st r j stage sh = some o) (hL : Logs i s t d o.signed o.msgs dl s' t' d') : CParty env i s' t' d' o.st := by
  unfold DyCAPS.onEchoShare at ho
  simp only at ho
  split at ho
  · rename_i hr
    split at ho
    · split at ho
      · split at ho
        · cases ho
          exact h.silent hL hr.1 rfl rfl rfl rfl rfl rfl rfl rfl rfl rfl rfl rfl (by intro m hm; rw [List.mem_singleton] at hm; subst hm; exact ⟨rfl, rfl, rfl⟩)
        · cases ho
          exact h.silent hL hr.1 rfl rfl rfl rfl rfl rfl rfl rfl rfl rfl rfl rfl (by simp)
      · cases ho; exact h.idle hL (by simp)
    · split at ho
      · split at ho
        · cases ho
          exact h.silent hL hr.1 rfl rfl rfl rfl rfl rfl rfl rfl rfl rfl rfl rfl (by intro m hm; rw [List.mem_singleton] at hm; subst hm; exact ⟨rfl, trivial⟩)
        · cases ho
          exact h.silent hL hr.1 rfl rfl rfl rfl rfl rfl rfl rfl rfl rfl rfl rfl (by simp)
      · cases ho; exact h.idle hL (by simp)
    · cases ho
  · cases ho

theorem CParty.onFinish {env : MEnv} {i : ℕ} {s t d dl s' t' d'} {st : MState} (h : CParty env i s t d st)
    {r q : ℕ} {v sig : Bytes} {o : MOut} (ho : onFinish env st r q v sig = some o) (hL : Logs i s t d o.signed o.msgs dl s' t' d') : CParty env i s' t' d' o.st := by
  unfold DyCAPS.onFinish at ho
  simp only at ho
  split at ho
  · rename_i hr
    split at ho
    · split at ho
      · cases ho
        exact h.silent hL hr rfl rfl rfl rfl rfl rfl rfl rfl rfl rfl rfl rfl (by simp)
      · cases ho; exact h.idle hL (by simp)
    · cases ho
      exact (h.idle hL (by simp)).congr rfl rfl rfl
  · cases ho

theorem CParty.onHalt {env : MEnv} {i : ℕ} {s t d dl s' t' d'} {st : MState} (h : CParty env i s t d st)
    {r : ℕ} {v sig : Bytes} {o : MOut} (ho : onHalt env st r v sig = some o) (hL : Logs i s t d o.signed o.msgs dl s' t' d') : CParty env i s' t' d' o.st := by
  unfold DyCAPS.onHalt at ho
  simp only at ho
  split at ho
  · cases ho
  · split at ho
    · rename_i hr
      split at ho
      · split at ho
        · cases ho
        · cases ho
          exact (h.silent hL (R := { st.rounds r with haltDone := true }) hr.1 rfl rfl rfl rfl rfl rfl rfl rfl rfl rfl rfl rfl (by simp)).congr rfl rfl rfl
      · cases ho; exact h.idle hL (by simp)
    · cases ho

theorem CParty.onDone {env : MEnv} {H : Finset ℕ} {i : ℕ} {s t d s' t' d'} {party : ℕ → MState} {st : MState} (h : CParty env i s t d st)
    {r q : ℕ} {sh : Bytes} {o : MOut} (hq : Recvd env H i s t d party q (.done r sh))
    (ho : onDone env st r sh = some o) (hL : Logs i s t d o.signed o.msgs [(i, q, .done r sh)] s' t' d') : CParty env i s' t' d' o.st := by
  unfold DyCAPS.onDone at ho
  simp only at ho
  split at ho
  · rename_i hr
    split at ho
    · cases ho
      have hcl := h.lst r
      have hsh : sh = env.sign q (.done r) := hq.sig.sent _ hq.sent rfl
      refine h.setRound hL hr.1 ⟨rfl, fun _ h => ⟨h, rfl⟩, (fun l hl => by rw [hr.2] at hl; cases hl), fun _ h => h, id, id⟩ (fun _ h => h) (by simp) (by simp) ?_
      have hg := hcl.grow (R' := st.rounds r) hL.sub_s hL.sub_d rfl rfl rfl rfl rfl rfl fun _ h => h
      refine ⟨?_, hg.pn, hg.vn, ?_, hg.pvNo, hg.voYes, hg.voNo⟩
      · obtain ⟨L, a, b, c⟩ := hcl.coins
        refine ⟨L ++ [q], ?_, ?_, ?_⟩
        · rw [List.nodup_append]
          refine ⟨a, by simp, ?_⟩
          rintro k hk k' hk' rfl
          rw [List.mem_singleton] at hk'
          subst hk'
          obtain ⟨-, sh', hd⟩ := c k hk
          -- the same message would have been delivered before
          refine hq.fresh ?_
          have hk2 := hq.log _ _ hd
          have : sh' = env.sign k (.done r) := hq.sig.sent _ hk2 rfl
          rw [hsh, ← this]
          exact hd
        · simp only
          rw [b, hsh]; simp
        · intro k hk
          rcases List.mem_append.1 hk with hk | hk
          · exact ⟨(c k hk).1, (c k hk).2.imp fun _ => hL.sub_d _⟩
          · rw [List.mem_singleton] at hk
            subst hk
            exact ⟨hq.lt, sh, by rw [hL.d_eq]; simp⟩
      · obtain ⟨L, a, b, c⟩ := hg.vy
        refine ⟨L, a, b, fun k hk => ?_⟩
        obtain ⟨-, -, l, w, e, -⟩ := c k hk
        rw [hr.2] at e; cases e
    · cases ho; exact h.idle hL (by simp)
  · cases ho

theorem CParty.onPreVote {env : MEnv} {full : SMsg → Bytes} (hok : SchemeOk env full) {H : Finset ℕ} {i : ℕ} {s t d s' t' d'} {party : ℕ → MState} {st : MState} (h : CParty env i s t d st)
    {r q : ℕ} {yes : Bool} {v sig : Bytes} {o : MOut} (hq : Recvd env H i s t d party q (.prevote r yes v sig))
    (ho : onPreVote env st r yes v sig = some o) (hL : Logs i s t d o.signed o.msgs [(i, q, .prevote r yes v sig)] s' t' d') : CParty env i s' t' d' o.st := by
  unfold DyCAPS.onPreVote at ho
  simp only at ho
  have hcl := h.lst r
  have hg := hcl.grow (R' := st.rounds r) hL.sub_s hL.sub_d rfl rfl rfl rfl rfl rfl fun _ h => h
  split at ho
  · cases ho
  · split at ho
    · rename_i hr
      split at ho
      · split at ho
        · cases ho
          refine h.setRound hL hr ⟨rfl, fun _ h => ⟨h, rfl⟩, fun _ h => h, fun _ h => or_mono h, id, id⟩ (fun _ h => h) (by simp) (by simp) ?_
          refine ⟨hg.coins, hg.pn, hg.vn, hg.vy, ?_, hg.voYes, hg.voNo⟩
          intro sig' hp
          rcases or_some_eq hp with hp | ⟨-, hp⟩
          · exact hg.pvNo sig' hp
          · cases hp
        · cases ho; exact h.idle hL (by simp)
      · rename_i hy
        have hy : yes = false := by simpa using hy
        subst hy
        split at ho
        · cases ho
          obtain ⟨hv, hsig⟩ := hq.sig.sent _ hq.sent rfl rfl
          refine h.setRound hL hr ⟨rfl, fun _ h => ⟨h, rfl⟩, fun _ h => h, fun x h => ?_, id, id⟩ (fun _ h => h) (by simp) (by simp) ?_
          · simp only
            split
            · exact or_mono h
            · exact h
          refine ⟨hg.coins, ?_, hg.vn, hg.vy, ?_, hg.voYes, hg.voNo⟩
          · obtain ⟨L, a, b, c⟩ := hcl.pn
            refine ⟨L ++ [q], ?_, by simp [b], ?_⟩
            · rw [List.nodup_append]
              refine ⟨a, by simp, ?_⟩
              rintro k hk k' hk' rfl
              rw [List.mem_singleton] at hk'
              subst hk'
              obtain ⟨-, -, v', sig', hd⟩ := c k hk
              refine hq.fresh ?_
              obtain ⟨e1, e2⟩ := hq.sig.sent _ (hq.log _ _ hd) rfl rfl
              rw [hv, hsig, ← e1, ← e2]
              exact hd
            · intro k hk
              rcases List.mem_append.1 hk with hk | hk
              · obtain ⟨x, y, v', sig', z⟩ := c k hk
                exact ⟨x, hL.sub_s _ y, v', sig', hL.sub_d _ z⟩
              · rw [List.mem_singleton] at hk
                subst hk
                have hgen := (hq.gen sig (by simp [MMsg.sigs]) (.no r)).1 k (by rw [hsig]; exact hok.share_sign k hq.lt _)
                exact ⟨hq.lt, hL.sub_s _ (hgen.2 hq.hon), v, sig, by rw [hL.d_eq]; simp⟩
          · intro sig' hp
            simp only at hp ⊢
            split at hp
            · rename_i hlen
              exact hlen
            · have := hcl.pvNo sig' hp
              rw [List.length_append]; omega
        · cases ho; exact h.idle hL (by simp)
    · cases ho

theorem vote_unique {env : MEnv} {k : ℕ} {s : List (ℕ × SMsg)} {t : List (ℕ × MMsg)} {r : ℕ} {R : MRound} (h : CSig env k s t r R) {yes : Bool} {v v' sig sig' sh sh' : Bytes}
    (h1 : (k, MMsg.vote r yes v sig sh) ∈ t) (h2 : (k, MMsg.vote r yes v' sig' sh') ∈ t) : v = v' ∧ sig = sig' ∧ sh = sh' := by
  obtain ⟨-, l, hl, a⟩ := h.sent _ h1 rfl
  obtain ⟨-, l', hl', b⟩ := h.sent _ h2 rfl
  rw [hl] at hl'
  cases hl'
  rcases a with ⟨ay, a1, a2⟩ | ⟨ay, a0, a1, a2⟩ <;> rcases b with ⟨yb, b1, b2⟩ | ⟨yb, b0, b1, b2⟩
  · rw [a1] at b1; cases b1; exact ⟨rfl, rfl, a2.trans b2.symm⟩
  · rw [ay] at yb; cases yb
  · rw [ay] at yb; cases yb
  · rw [a1] at b1; cases b1; exact ⟨a0.trans b0.symm, rfl, a2.trans b2.symm⟩

/-- All parties that have a leader have the one the combined coin gives. -/
theorem leader_full {env : MEnv} {full : SMsg → Bytes} (hok : SchemeOk env full) {H : Finset ℕ} {i r : ℕ} {s d} {R : MRound} (h : RInv env H i s r R) (hc : CList env i s d r R) {l : ℕ}
    (hl : R.leader = some l) : l = leaderOf env (full (.done r)) := by
  obtain ⟨a, b⟩ := h.lead l hl
  obtain ⟨L, n, e, m⟩ := hc.coins
  rw [e] at a b
  rw [List.length_map] at a
  rw [hok.recover_full _ _ L ?_ n (by omega)] at b
  swap
  · rw [List.map_map]
    exact List.map_congr_left fun k hk => hok.share_sign k (m k hk).1 _
  exact b

theorem CParty.onVote {env : MEnv} {full : SMsg → Bytes} (hok : SchemeOk env full) {H : Finset ℕ} {i : ℕ} {s t d s' t' d'} {party : ℕ → MState} {st : MState} (h : CParty env i s t d st)
    {r q : ℕ} {yes : Bool} {v sig sh : Bytes} {o : MOut} (hq : Recvd env H i s t d party q (.vote r yes v sig sh))
    (hli : ∀ l, (st.rounds r).leader = some l → l = leaderOf env (full (.done r))) (hlq : ∀ l, ((party q).rounds r).leader = some l → l = leaderOf env (full (.done r)))
    (ho : onVote env st r yes v sig sh = some o) (hL : Logs i s t d o.signed o.msgs [(i, q, .vote r yes v sig sh)] s' t' d') : CParty env i s' t' d' o.st := by
  unfold DyCAPS.onVote at ho
  simp only at ho
  have hcl := h.lst r
  have hg := hcl.grow (R' := st.rounds r) hL.sub_s hL.sub_d rfl rfl rfl rfl rfl rfl fun _ h => h
  obtain ⟨-, l', hl', hx⟩ := hq.sig.sent _ hq.sent rfl
  split at ho
  · cases ho
  · rename_i l hl
    have hll : l' = l := (hlq l' hl').trans (hli l hl).symm
    rw [hll] at hx
    split at ho
    · rename_i hr
      split at ho
      · rename_i hy
        subst hy
        split at ho
        · cases ho
          refine h.setRound hL hr ⟨rfl, fun _ h => ⟨h, rfl⟩, fun _ h => h, fun _ h => h, id, id⟩ (fun x h => ?_) (by simp) (by simp) ?_
          · simp only
            split
            · exact or_mono h
            · split
              · exact or_mono h
              · exact h
          refine ⟨hg.coins, hg.pn, hg.vn, ?_, hg.pvNo, ?_, ?_⟩
          · obtain ⟨L, a, b, c⟩ := hcl.vy
            refine ⟨L ++ [q], ?_, by simp [b], ?_⟩
            · rw [List.nodup_append]
              refine ⟨a, by simp, ?_⟩
              rintro k hk k' hk' rfl
              rw [List.mem_singleton] at hk'
              subst hk'
              obtain ⟨-, ⟨v', sig', sh', hd⟩, -⟩ := c k hk
              refine hq.fresh ?_
              obtain ⟨e1, e2, e3⟩ := vote_unique hq.sig hq.sent (hq.log _ _ hd)
              rw [e1, e2, e3]
              exact hd
            · intro k hk
              rcases List.mem_append.1 hk with hk | hk
              · obtain ⟨x, ⟨v', sig', sh', z⟩, l2, w, e, f⟩ := c k hk
                exact ⟨x, ⟨v', sig', sh', hL.sub_d _ z⟩, l2, w, e, hL.sub_s _ f⟩
              · rw [List.mem_singleton] at hk
                subst hk
                rcases hx with ⟨-, -, hsh⟩ | ⟨hf, -⟩
                · have hgen := (hq.gen sh (by simp [MMsg.sigs]) (.echo r l 2 (env.hash v))).1 k (by rw [hsh]; exact hok.share_sign k hq.lt _)
                  exact ⟨hq.lt, ⟨v, sig, sh, by rw [hL.d_eq]; simp⟩, l, v, hl, hL.sub_s _ (hgen.2 hq.hon)⟩
                · cases hf
          · intro v' sig' hp
            simp only at hp ⊢
            split at hp
            · rename_i hlen
              exact hlen
            · rw [List.length_append]
              split at hp
              · rcases or_some_eq hp with hp | ⟨-, hp⟩
                · have := hcl.voYes v' sig' hp; omega
                · cases hp
              · have := hcl.voYes v' sig' hp; omega
          · intro sig' hp
            simp only at hp ⊢
            split at hp
            · rcases or_some_eq hp with hp | ⟨-, hp⟩
              · exact hcl.voNo sig' hp
              · cases hp
            · split at hp
              · rcases or_some_eq hp with hp | ⟨-, hp⟩
                · exact hcl.voNo sig' hp
                · cases hp
              · exact hcl.voNo sig' hp
        · cases ho; exact h.idle hL (by simp)
      · rename_i hy
        have hy : yes = false := by simpa using hy
        subst hy
        split at ho
        · cases ho
          refine h.setRound hL hr ⟨rfl, fun _ h => ⟨h, rfl⟩, fun _ h => h, fun _ h => h, id, id⟩ (fun x h => ?_) (by simp) (by simp) ?_
          · simp only
            split
            · exact or_mono h
            · exact h
          refine ⟨hg.coins, hg.pn, ?_, hg.vy, hg.pvNo, ?_, ?_⟩
          · obtain ⟨L, a, b, c⟩ := hcl.vn
            refine ⟨L ++ [q], ?_, by simp [b], ?_⟩
            · rw [List.nodup_append]
              refine ⟨a, by simp, ?_⟩
              rintro k hk k' hk' rfl
              rw [List.mem_singleton] at hk'
              subst hk'
              obtain ⟨-, -, v', sig', sh', hd⟩ := c k hk
              refine hq.fresh ?_
              obtain ⟨e1, e2, e3⟩ := vote_unique hq.sig hq.sent (hq.log _ _ hd)
              rw [e1, e2, e3]
              exact hd
            · intro k hk
              rcases List.mem_append.1 hk with hk | hk
              · obtain ⟨x, y, v', sig', sh', z⟩ := c k hk
                exact ⟨x, hL.sub_s _ y, v', sig', sh', hL.sub_d _ z⟩
              · rw [List.mem_singleton] at hk
                subst hk
                rcases hx with ⟨hf, -⟩ | ⟨-, -, -, hsh⟩
                · cases hf
                · have hgen := (hq.gen sh (by simp [MMsg.sigs]) (.unlock r)).1 k (by rw [hsh]; exact hok.share_sign k hq.lt _)
                  exact ⟨hq.lt, hL.sub_s _ (hgen.2 hq.hon), v, sig, sh, by rw [hL.d_eq]; simp⟩
          · intro v' sig' hp
            simp only at hp ⊢
            split at hp
            · rcases or_some_eq hp with hp | ⟨-, hp⟩
              · exact hcl.voYes v' sig' hp
              · cases hp
            · exact hcl.voYes v' sig' hp
          · intro sig' hp
            simp only at hp ⊢
            split at hp
            · rename_i hlen
              exact hlen
            · have := hcl.voNo sig' hp
              rw [List.length_append]; omega
        · cases ho; exact h.idle hL (by simp)
    · cases ho

theorem CParty.onJoined {env : MEnv} {i : ℕ} {s t d dl s' t' d'} {st : MState} (h : CParty env i s t d st) (hlt : ∀ l, st.phase = .join l → (st.rounds st.round).leader = some l ∧ l < env.N)
    {o : MOut} (ho : onJoined env i st = some o) (hL : Logs i s t d o.signed o.msgs dl s' t' d') : CParty env i s' t' d' o.st := by
  unfold DyCAPS.onJoined at ho
  simp only at ho
  split at ho
  · rename_i l hph
    obtain ⟨hlead, hl⟩ := hlt l hph
    split at ho
    · rename_i hend
      have hle : RLe (st.rounds st.round) { st.rounds st.round with voteSpawned := true } := ⟨rfl, fun _ h => ⟨h, rfl⟩, fun _ h => h, fun _ h => h, id, fun _ => rfl⟩
      have hcl : CList env i s' d' st.round { st.rounds st.round with voteSpawned := true } := (h.lst st.round).grow hL.sub_s hL.sub_d rfl rfl rfl rfl rfl rfl fun _ h => h
      split at ho
      · cases ho
        exact (h.idle hL (by intro m hm; rw [List.mem_singleton] at hm; subst hm; exact ⟨le_rfl, fun _ => trivial⟩)).congr rfl rfl rfl
      · split at ho
        · cases ho
          exact (h.setRound hL le_rfl hle (fun _ h => h) (by simp)
            (by intro m hm; rw [List.mem_singleton] at hm; subst hm; exact ⟨rfl, by simp [GoodSent]⟩) hcl).congr rfl rfl rfl
        · rename_i hlock
          cases ho
          refine (h.setRound hL le_rfl hle (fun _ h => h) ?_ ?_ hcl).congr rfl rfl rfl
          · intro m hm
            rw [List.mem_singleton] at hm
            subst hm
            exact ⟨rfl, rfl, l, hlead, hend.1 l hl, hlock⟩
          · intro m hm
            rw [List.mem_singleton] at hm
            subst hm
            exact ⟨rfl, fun _ => ⟨rfl, rfl⟩⟩
    · cases ho
  · cases ho

theorem CParty.onSendVote {env : MEnv} {i : ℕ} {s t d dl s' t' d'} {st : MState} (h : CParty env i s t d st)
    {r : ℕ} {o : MOut} (ho : onSendVote env i st r = some o) (hL : Logs i s t d o.signed o.msgs dl s' t' d') : CParty env i s' t' d' o.st := by
  unfold DyCAPS.onSendVote at ho
  simp only at ho
  split at ho
  · rename_i hr
    have hle : RLe (st.rounds r) { st.rounds r with voted := true } := ⟨rfl, fun _ h => ⟨h, rfl⟩, fun _ h => h, fun _ h => h, fun _ => rfl, id⟩
    have hcl : CList env i s' d' r { st.rounds r with voted := true } := (h.lst r).grow hL.sub_s hL.sub_d rfl rfl rfl rfl rfl rfl fun _ h => h
    split at ho
    · rename_i l v sig hl hp
      cases ho
      refine h.setRound hL hr.1 hle (fun _ h => h) ?_ ?_ hcl
      · intro m hm
        rw [List.mem_singleton] at hm
        subst hm
        exact ⟨rfl, by simp, fun _ => Or.inr ⟨rfl, hl, v, sig, hp, rfl⟩⟩
      · intro m hm
        rw [List.mem_singleton] at hm
        subst hm
        exact ⟨rfl, rfl, l, hl, Or.inl ⟨rfl, hp, rfl⟩⟩
    · rename_i l sig hl hp
      cases ho
      refine h.setRound hL hr.1 hle (fun _ h => h) ?_ ?_ hcl
      · intro m hm
        rw [List.mem_singleton] at hm
        subst hm
        exact ⟨rfl, rfl, sig, hp⟩
      · intro m hm
        rw [List.mem_singleton] at hm
        subst hm
        exact ⟨rfl, rfl, l, hl, Or.inr ⟨rfl, rfl, hp, rfl⟩⟩
    · cases ho
  · cases ho

theorem CParty.startRound {env : MEnv} {i : ℕ} {s t d dl s' t' d'} {st : MState} (h : CParty env i s t d st) (hpast : ∀ m, (i, m) ∈ s → m.rnd ≤ st.round) {v val : Bytes}
    (hnx : ((∃ sig, (st.rounds st.round).voteOut = some (.no sig)) ∧ v = st.value) ∨ (∃ sig, (st.rounds st.round).voteOut = some (.other v sig)))
    (hL : Logs i s t d [] (startRound i (st.round + 1) v val st).2 dl s' t' d') : CParty env i s' t' d' (startRound i (st.round + 1) v val st).1 := by
  have hrd : ∀ r, (DyCAPS.startRound i (st.round + 1) v val st).1.rounds r = if r = st.round + 1 then MRound.init v val else st.rounds r := fun _ => rfl
  have hrd0 : (DyCAPS.startRound i (st.round + 1) v val st).1.round = st.round + 1 := rfl
  have hm0 : ∀ m, m ∈ (DyCAPS.startRound i (st.round + 1) v val st).2 → m = .value (st.round + 1) i 1 v val := fun m hm => List.mem_singleton.1 hm
  refine ⟨fun r => ?_, fun r => ?_, fun m hm => ?_, fun r hr => ?_, ?_⟩
  · rw [hrd]
    split
    · rename_i e
      subst e
      refine ⟨fun m hm he => ?_, fun m hm he => ?_⟩
      · rcases hL.mem_s hm with hm | hm
        · have := hpast m hm; omega
        · cases hm
      · rcases hL.mem_t hm with hm | hm
        · have := h.past m hm; omega
        · rw [hm0 m hm]; exact ⟨rfl, rfl⟩
    · rename_i e
      exact (h.sig r).grow (RLe.refl _) hL.sub_t (fun m hm _ => (hL.mem_s hm).imp id fun a => by cases a)
        (fun m hm he => (hL.mem_t hm).imp id fun a => by rw [hm0 m a] at he; exact absurd he.symm e)
  · rw [hrd]
    split
    · exact CList.init _ _ _ _ _ _ _
    · exact (h.lst r).grow hL.sub_s hL.sub_d rfl rfl rfl rfl rfl rfl fun _ h => h
  · rw [hrd0]
    rcases hL.mem_t hm with hm | hm
    · exact Nat.le_succ_of_le (h.past m hm)
    · rw [hm0 m hm]; exact le_rfl
  · rw [hrd0] at hr
    rw [hrd, hrd, if_neg (by omega)]
    by_cases e : r = st.round
    · subst e
      rw [if_pos rfl]
      rcases hnx with ⟨a, b⟩ | ⟨sig, a⟩
      · exact Or.inl ⟨a, by rw [← h.value, ← b]; rfl⟩
      · exact Or.inr ⟨v, sig, a, rfl⟩
    · rw [if_neg (by omega)]
      exact h.next r (by omega)
  · rw [hrd0, hrd, if_pos rfl]; rfl

theorem CParty.onTakeVote {env : MEnv} {i : ℕ} {s t d dl s' t' d'} {st : MState} (h : CParty env i s t d st) (hpast : ∀ m, (i, m) ∈ s → m.rnd ≤ st.round)
    {o : MOut} (ho : onTakeVote i st = some o) (hL : Logs i s t d o.signed o.msgs dl s' t' d') : CParty env i s' t' d' o.st := by
  unfold DyCAPS.onTakeVote at ho
  simp only at ho
  split at ho
  · split at ho
    · cases ho
    · cases ho
      exact (h.idle hL (by intro m hm; rw [List.mem_singleton] at hm; subst hm; exact ⟨le_rfl, fun _ => trivial⟩)).congr rfl rfl rfl
    · rename_i sig hv
      cases ho
      exact h.startRound hpast (Or.inl ⟨⟨sig, hv⟩, rfl⟩) hL
    · rename_i v sig hv
      cases ho
      exact h.startRound hpast (Or.inr ⟨sig, hv⟩) hL
  · cases ho

theorem leaderOf_lt {env : MEnv} (h : 0 < env.N) (c : Bytes) : leaderOf env c < env.N := Nat.mod_lt _ h

theorem CParty.step {env : MEnv} {full : SMsg → Bytes} (hok : SchemeOk env full) (hN : 0 < env.N) {H : Finset ℕ} {i : ℕ} {s t d s' t' d'} {party : ℕ → MState}
    (h : CParty env i s t d (party i)) (hP : PInvM env H i s (party i)) (hlead : ∀ k ∈ H, ∀ r l, ((party k).rounds r).leader = some l → l = leaderOf env (full (.done r))) (hi : i ∈ H)
    {ev : MEvent} {o : MOut} (hq : ∀ q m, ev = .recv q m → Recvd env H i s t d party q m)
    (ho : mvbaStep env i (party i) ev = some o) (hL : Logs i s t d o.signed o.msgs (logDelivery i ev) s' t' d') : CParty env i s' t' d' o.st := by
  unfold mvbaStep at ho
  split at ho
  · cases ho
  · split at ho
    · obtain ⟨o', ho', rfl⟩ := Option.map_eq_some_iff.1 ho
      have := h.onValue (hq _ _ rfl) ho' rfl rfl hL
      exact this
    · exact h.onEchoShare ho hL
    · exact h.onFinish ho hL
    · exact h.onDone (hq _ _ rfl) ho hL
    · exact h.onHalt ho hL
    · exact h.onPreVote hok (hq _ _ rfl) ho hL
    · exact h.onVote hok (hq _ _ rfl) (hlead i hi _) (hlead _ (hq _ _ rfl).hon _) ho hL
    · rename_i j
      simp only at ho
      have hcl : ∀ f, CList env i s' d' (party i).round { (party i).rounds (party i).round with recv := f } := fun f =>
        (h.lst (party i).round).grow hL.sub_s hL.sub_d rfl rfl rfl rfl rfl rfl fun _ h => h
      split at ho
      · split at ho
        · rename_i hpos
          cases ho
          refine h.setRound hL le_rfl ⟨rfl, fun j' hj' => ⟨?_, rfl⟩, fun _ h => h, fun _ h => h, id, id⟩ (fun _ h => h) (by simp) (by simp) (hcl _)
          simp only
          rw [if_neg]
          · exact hj'
          · rintro rfl; rw [hpos] at hj'; cases hj'
        · rename_i hpos
          cases ho
          refine h.setRound hL le_rfl ⟨rfl, fun j' hj' => ⟨?_, rfl⟩, fun _ h => h, fun _ h => h, id, id⟩ (fun _ h => h) (by simp) (by simp) (hcl _)
          simp only
          split
          · rfl
          · exact hj'
        · cases ho
      · cases ho
    · simp only at ho
      split at ho
      · cases ho
        exact h.silent hL le_rfl rfl rfl rfl rfl rfl rfl rfl rfl rfl rfl rfl rfl (by simp)
      · cases ho
    · rename_i r
      simp only at ho
      split at ho
      · rename_i hr
        cases ho
        refine h.setRound hL hr.1 ⟨rfl, fun _ h => ⟨h, rfl⟩, fun _ h => h, fun _ h => h, id, id⟩ (fun _ h => h) ?_ ?_
          ((h.lst r).grow hL.sub_s hL.sub_d rfl rfl rfl rfl rfl rfl fun _ h => h)
        · intro m hm
          rw [List.mem_singleton] at hm
          subst hm
          exact ⟨rfl, trivial⟩
        · intro m hm
          rw [List.mem_singleton] at hm
          subst hm
          exact ⟨rfl, rfl⟩
      · cases ho
    · split at ho
      · cases ho
        exact (h.idle hL (by simp)).congr rfl rfl rfl
      · cases ho
    · refine h.onJoined ?_ ho hL
      intro l hl
      have := hP.join l (Or.inl hl)
      refine ⟨this, ?_⟩
      rw [hlead i hi _ l this]
      exact leaderOf_lt hN _
    · exact h.onSendVote ho hL
    · split at ho
      · cases ho
        exact (h.idle hL (by simp)).congr rfl rfl rfl
      · cases ho
        exact (h.idle hL (by simp)).congr rfl rfl rfl
      · cases ho
    · exact h.onTakeVote hP.past ho hL

/-- The whole network. -/
structure CNet (env : MEnv) (H : Finset ℕ) (net : MNet) : Prop where
  party : ∀ i ∈ H, CParty env i net.signed net.sent net.delivered (net.party i)
  log : ∀ i k m, (i, k, m) ∈ net.delivered → (k, m) ∈ net.sent

theorem MRun.crash {env : MEnv} {full : SMsg → Bytes} (hok : SchemeOk env full) (hN : 0 < env.N) {input : ℕ → Bytes × Bytes} {evs : List (ℕ × MEvent)} {net : MNet}
    (h : MRun env (Finset.range env.N) ⟨true, true⟩ (MNet.init (Finset.range env.N) input env.N) evs net) (hsrc : ∀ i q m, (i, MEvent.recv q m) ∈ evs → q < env.N) :
    CNet env (Finset.range env.N) net := by
  induction h with
  | nil =>
    refine ⟨fun i hi => ?_, by simp [MNet.init]⟩
    have hsent : ∀ m, (i, m) ∈ (MNet.init (Finset.range env.N) input env.N).sent → m = .value 0 i 1 (input i).1 (input i).2 := by
      intro m hm
      simp only [MNet.init, MState.init, startRound, List.map_cons, List.map_nil, List.mem_flatMap, List.mem_singleton, Prod.mk.injEq] at hm
      obtain ⟨k, -, rfl, e⟩ := hm
      exact e
    have hr : ∀ r, ((MNet.init (Finset.range env.N) input env.N).party i).rounds r = if r = 0 then MRound.init (input i).1 (input i).2 else MRound.init [] [] := fun _ => rfl
    refine ⟨fun r => ⟨by simp [MNet.init], fun m hm he => ?_⟩, fun r => ?_, fun m hm => ?_, (fun r hr' => by cases hr'), rfl⟩
    · rw [hsent m hm] at he ⊢
      have : r = 0 := he.symm
      subst this
      rw [hr]
      exact ⟨rfl, rfl⟩
    · rw [hr]
      split
      · exact CList.init _ _ _ _ _ _ _
      · exact CList.init _ _ _ _ _ _ _
    · rw [hsent m hm]; exact le_rfl
  | @snoc evs net i ev net' h hi ha hs ih =>
    have hsrc' : ∀ i q m, (i, MEvent.recv q m) ∈ evs → q < env.N := fun i q m hm => hsrc i q m (List.mem_append_left _ hm)
    have ih := ih hsrc'
    have hinv := h.inv
    obtain ⟨o, ho, rfl⟩ := Option.map_eq_some_iff.1 hs
    have hL : Logs i net.signed net.sent net.delivered o.signed o.msgs (logDelivery i ev) (net.signed ++ o.signed.map fun m => (i, m)) (net.sent ++ o.msgs.map fun m => (i, m))
      (net.delivered ++ logDelivery i ev) := ⟨rfl, rfl, rfl⟩
    have hlead : ∀ k ∈ Finset.range env.N, ∀ r l, ((net.party k).rounds r).leader = some l → l = leaderOf env (full (.done r)) := fun k hk r l hl =>
      leader_full hok ((hinv k hk).rounds r) ((ih.party k hk).lst r) hl
    refine ⟨fun k hk => ?_, ?_⟩
    · show CParty env k _ _ _ (if k = i then o.st else net.party k)
      split
      · rename_i e
        subst e
        refine (ih.party k hk).step hok hN (hinv k hk) hlead hk (fun q m he => ?_) ho hL
        subst he
        have hqN : q < env.N := hsrc k q m (by simp)
        have hqH := Finset.mem_range.2 hqN
        exact ⟨hqN, hqH, ha.2.1 rfl hqH, ha.2.2 rfl hqH, ha.1, fun k' m' hd => ih.log _ _ _ hd, (ih.party q hqH).sig _⟩
      · rename_i e
        exact (ih.party k hk).others e hL
    · intro a k m hm
      rcases List.mem_append.1 hm with hm | hm
      · exact hL.sub_t _ (ih.log a k m hm)
      · cases ev with
        | recv q m' =>
          simp only [logDelivery, List.mem_singleton, Prod.mk.injEq] at hm
          obtain ⟨rfl, rfl, rfl⟩ := hm
          exact hL.sub_t _ (ha.2.1 rfl (Finset.mem_range.2 (hsrc a k m (by simp))))
        | _ => simp [logDelivery] at hm

end DyCAPS

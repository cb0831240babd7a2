import Verif.Lemmas.MVBAAgree
import Verif.Spec.Agreement

/-!
# Agreement without corrupt parties: nothing that was delivered is forgotten

The invariant behind the theorem about finished executions (C83). All parties follow the protocol, messages carry their true sender and are not delivered twice.
-/

namespace DyCAPS

/-- The leader that the coin of round `r` gives. -/
def coinLeader (env : MEnv) (full : SMsg → Bytes) (r : ℕ) : ℕ := leaderOf env (full (.done r))

/-- Party `j` has broadcast the value `v` in round `r`. -/
def Val (t : List (ℕ × MMsg)) (r j : ℕ) (v : Bytes) : Prop := ∃ s val, (j, MMsg.value r j s v val) ∈ t

theorem Val.mono {t t' : List (ℕ × MMsg)} (ht : ∀ x ∈ t, x ∈ t') {r j : ℕ} {v : Bytes} : Val t r j v → Val t' r j v
  | ⟨s, val, h⟩ => ⟨s, val, ht _ h⟩

/-- What the messages of party `k` look like. -/
def LSent (env : MEnv) (full : SMsg → Bytes) (k : ℕ) (t : List (ℕ × MMsg)) : MMsg → Prop
  | .value r j stage v val => j = k ∧ (stage = 1 ∨ (stage = 2 ∧ val = full (.echo r k 1 (env.hash v))))
  | .echo r j stage sh => ∃ v, Val t r j v ∧ sh = env.sign k (.echo r j stage (env.hash v))
  | .finish r v sig => Val t r k v ∧ sig = full (.echo r k 2 (env.hash v))
  | .done r sh => sh = env.sign k (.done r)
  | .halt r v sig => Val t r (coinLeader env full r) v ∧ sig = full (.echo r (coinLeader env full r) 2 (env.hash v))
  | .prevote r yes v sig => (yes = true → Val t r (coinLeader env full r) v ∧ sig = full (.echo r (coinLeader env full r) 1 (env.hash v))) ∧
      (yes = false → v = [] ∧ sig = env.sign k (.no r))
  | .vote r yes v sig sh => (yes = true → Val t r (coinLeader env full r) v ∧ sig = full (.echo r (coinLeader env full r) 1 (env.hash v)) ∧
      sh = env.sign k (.echo r (coinLeader env full r) 2 (env.hash v))) ∧ (yes = false → v = [] ∧ sig = full (.no r) ∧ sh = env.sign k (.unlock r))

theorem LSent.mono {env : MEnv} {full : SMsg → Bytes} {k : ℕ} {t t' : List (ℕ × MMsg)} (ht : ∀ x ∈ t, x ∈ t') : ∀ {m : MMsg}, LSent env full k t m → LSent env full k t' m
  | .value _ _ _ _ _, h => h
  | .echo _ _ _ _, ⟨v, a, b⟩ => ⟨v, a.mono ht, b⟩
  | .finish _ _ _, ⟨a, b⟩ => ⟨a.mono ht, b⟩
  | .done _ _, h => h
  | .halt _ _ _, ⟨a, b⟩ => ⟨a.mono ht, b⟩
  | .prevote _ _ _ _, ⟨a, b⟩ => ⟨fun h => ⟨(a h).1.mono ht, (a h).2⟩, b⟩
  | .vote _ _ _ _ _, ⟨a, b⟩ => ⟨fun h => ⟨(a h).1.mono ht, (a h).2⟩, b⟩

/-- `sigs` are the shares of exactly the parties with `P`. -/
def Tally (env : MEnv) (sigs : List Bytes) (m : SMsg) (P : ℕ → Prop) : Prop :=
  ∃ L : List ℕ, L.Nodup ∧ sigs = L.map (fun k => env.sign k m) ∧ ∀ k, k ∈ L ↔ k < env.N ∧ P k

theorem Tally.congr {env : MEnv} {sigs : List Bytes} {m : SMsg} {P P' : ℕ → Prop} (h : Tally env sigs m P) (hP : ∀ k < env.N, P' k ↔ P k) : Tally env sigs m P' := by
  obtain ⟨L, a, b, c⟩ := h
  exact ⟨L, a, b, fun k => (c k).trans ⟨fun x => ⟨x.1, (hP k x.1).2 x.2⟩, fun x => ⟨x.1, (hP k x.1).1 x.2⟩⟩⟩

theorem Tally.empty {env : MEnv} {m : SMsg} {P : ℕ → Prop} (h : ∀ k, ¬ P k) : Tally env [] m P := ⟨[], List.nodup_nil, rfl, fun k => by simp [h k]⟩

theorem Tally.add {env : MEnv} {sigs : List Bytes} {m : SMsg} {P P' : ℕ → Prop} (h : Tally env sigs m P) {q : ℕ} (hq : q < env.N) (hn : ¬ P q) (hP : ∀ k, P' k ↔ P k ∨ k = q) :
    Tally env (sigs ++ [env.sign q m]) m P' := by
  obtain ⟨L, a, b, c⟩ := h
  refine ⟨L ++ [q], ?_, by simp [b], fun k => ?_⟩
  · rw [List.nodup_append]
    refine ⟨a, by simp, ?_⟩
    rintro x hx y hy rfl
    rw [List.mem_singleton] at hy
    subst hy
    exact hn ((c x).1 hx).2
  · rw [List.mem_append, List.mem_singleton, c, hP]
    constructor
    · rintro (x | rfl)
      · exact ⟨x.1, Or.inl x.2⟩
      · exact ⟨hq, Or.inr rfl⟩
    · rintro ⟨x, y | rfl⟩
      · exact Or.inl ⟨x, y⟩
      · exact Or.inr rfl

theorem Tally.recover {env : MEnv} {full : SMsg → Bytes} (hok : SchemeOk env full) {sigs : List Bytes} {m : SMsg} {P : ℕ → Prop} (h : Tally env sigs m P) (hl : 2 * env.F + 1 ≤ sigs.length) :
    env.recover m sigs = some (full m) := by
  obtain ⟨L, a, b, c⟩ := h
  refine hok.recover_full m sigs L ?_ a (by rw [b, List.length_map] at hl; exact hl)
  rw [b, List.map_map]
  exact List.map_congr_left fun k hk => hok.share_sign k ((c k).1 hk).1 m

theorem Tally.card {env : MEnv} {sigs : List Bytes} {m : SMsg} {P : ℕ → Prop} (h : Tally env sigs m P) {S : Finset ℕ} (hS : ∀ k ∈ S, k < env.N ∧ P k) : S.card ≤ sigs.length := by
  obtain ⟨L, a, b, c⟩ := h
  rw [b, List.length_map, ← List.toFinset_card_of_nodup a]
  exact Finset.card_le_card fun k hk => List.mem_toFinset.2 ((c k).2 (hS k hk))

theorem Tally.set {env : MEnv} {sigs : List Bytes} {m : SMsg} {P : ℕ → Prop} (h : Tally env sigs m P) : ∃ S : Finset ℕ, S.card = sigs.length ∧ ∀ k ∈ S, k < env.N ∧ P k := by
  obtain ⟨L, a, b, c⟩ := h
  exact ⟨L.toFinset, by rw [b, List.length_map, List.toFinset_card_of_nodup a], fun k hk => (c k).1 (List.mem_toFinset.1 hk)⟩

/-- Which handler a message is for. -/
def MMsg.kind : MMsg → ℕ
  | .value .. => 0
  | .echo .. => 1
  | .finish .. => 2
  | .done .. => 3
  | .halt .. => 4
  | .prevote .. => 5
  | .vote .. => 6

/-- Of kind `c` and round `r`, party `i` has the same messages in `d` and in `d'`. -/
def SameD (i c r : ℕ) (d d' : List (ℕ × ℕ × MMsg)) : Prop := ∀ k m, m.kind = c → m.rnd = r → ((i, k, m) ∈ d' ↔ (i, k, m) ∈ d)

/-! Round `r` of party `i`, given all messages sent so far (`t`) and the messages delivered so far (`d`). -/

/-- `SPBReceiver`s. -/
structure LVal (env : MEnv) (full : SMsg → Bytes) (i : ℕ) (t : List (ℕ × MMsg)) (d : List (ℕ × ℕ × MMsg)) (r : ℕ) (R : MRound) : Prop where
  recv : ∀ j stage v val, (i, j, MMsg.value r j stage v val) ∈ d → R.recv j ≠ .first ∧ (stage = 2 → R.recv j = .ended)
  lock : ∀ j v val, R.lock j = some (v, val) → Val t r j v ∧ val = full (.echo r j 1 (env.hash v))

/-- `SPBSender`. -/
structure LEcho (env : MEnv) (i : ℕ) (t : List (ℕ × MMsg)) (d : List (ℕ × ℕ × MMsg)) (r : ℕ) (R : MRound) : Prop where
  first : ∀ sigs, R.send = .first sigs → Tally env sigs (.echo r i 1 (env.hash R.prop.1)) (fun k => ∃ sh, (i, k, MMsg.echo r i 1 sh) ∈ d) ∧ sigs.length ≤ 2 * env.F ∧
    ∀ k sh, (i, k, MMsg.echo r i 2 sh) ∉ d
  second : ∀ sigs, R.send = .second sigs → Tally env sigs (.echo r i 2 (env.hash R.prop.1)) (fun k => ∃ sh, (i, k, MMsg.echo r i 2 sh) ∈ d) ∧ sigs.length ≤ 2 * env.F ∧
    ∃ v val, (i, MMsg.value r i 2 v val) ∈ t

/-- The Finish handler. -/
structure LFin (env : MEnv) (full : SMsg → Bytes) (i : ℕ) (t : List (ℕ × MMsg)) (d : List (ℕ × ℕ × MMsg)) (r : ℕ) (R : MRound) : Prop where
  fin : ∀ j v sig, R.fin j = some (v, sig) → Val t r j v ∧ sig = full (.echo r j 2 (env.hash v))
  finLen : ∃ L : List ℕ, L.Nodup ∧ R.finLen = L.length ∧ ∀ k, k ∈ L ↔ k < env.N ∧ ∃ v sig, (i, k, MMsg.finish r v sig) ∈ d
  flag : 2 * env.F + 1 ≤ R.finLen → R.doneFlag = true

/-- The Done handler and `election`. -/
structure LDone (env : MEnv) (i : ℕ) (t : List (ℕ × MMsg)) (d : List (ℕ × ℕ × MMsg)) (r : ℕ) (R : MRound) : Prop where
  elected : R.elected = true → ∃ sh, (i, MMsg.done r sh) ∈ t
  coins : R.leader = none → Tally env R.coins (.done r) (fun k => ∃ sh, (i, k, MMsg.done r sh) ∈ d)

/-- The PreVote handler. -/
structure LPv (env : MEnv) (full : SMsg → Bytes) (i : ℕ) (t : List (ℕ × MMsg)) (d : List (ℕ × ℕ × MMsg)) (r : ℕ) (R : MRound) : Prop where
  pn : Tally env R.PNr (.no r) (fun k => ∃ v sig, (i, k, MMsg.prevote r false v sig) ∈ d)
  pvYes : ∀ k v sig, (i, k, MMsg.prevote r true v sig) ∈ d → R.pvOut.isSome
  pvNo : 2 * env.F + 1 ≤ R.PNr.length → R.pvOut.isSome
  pvY : ∀ v sig, R.pvOut = some (.yes v sig) → Val t r (coinLeader env full r) v ∧ sig = full (.echo r (coinLeader env full r) 1 (env.hash v))
  pvN : ∀ sig, R.pvOut = some (.no sig) → sig = full (.no r)
  spawned : R.voteSpawned = true → ∃ yes v sig, (i, MMsg.prevote r yes v sig) ∈ t
  voted : R.voted = true → ∃ yes v sig sh, (i, MMsg.vote r yes v sig sh) ∈ t

/-- The Vote handler. -/
structure LVote (env : MEnv) (full : SMsg → Bytes) (i : ℕ) (t : List (ℕ × MMsg)) (d : List (ℕ × ℕ × MMsg)) (r : ℕ) (R : MRound) : Prop where
  vn : Tally env R.VNr (.unlock r) (fun k => ∃ v sig sh, (i, k, MMsg.vote r false v sig sh) ∈ d)
  vy : ∃ v, Tally env R.VYr (.echo r (coinLeader env full r) 2 (env.hash v)) (fun k => ∃ v sig sh, (i, k, MMsg.vote r true v sig sh) ∈ d) ∧
    (R.VYr ≠ [] → Val t r (coinLeader env full r) v)
  voY : 2 * env.F + 1 ≤ R.VYr.length → R.voteOut.isSome
  voN : 2 * env.F + 1 ≤ R.VNr.length → R.voteOut.isSome
  voYes : ∀ v sig, R.voteOut = some (.yes v sig) → Val t r (coinLeader env full r) v ∧ sig = full (.echo r (coinLeader env full r) 2 (env.hash v))
  voCount : R.voteOut.isSome → 2 * env.F + 1 ≤ R.VYr.length + R.VNr.length

/-- All variables of a round. -/
structure LRound (env : MEnv) (full : SMsg → Bytes) (i : ℕ) (t : List (ℕ × MMsg)) (d : List (ℕ × ℕ × MMsg)) (r : ℕ) (R : MRound) : Prop where
  val : LVal env full i t d r R
  ech : LEcho env i t d r R
  fin : LFin env full i t d r R
  don : LDone env i t d r R
  pv : LPv env full i t d r R
  vot : LVote env full i t d r R
  halted : ∀ k v sig, (i, k, MMsg.halt r v sig) ∈ d → R.haltDone = true

section grow
variable {env : MEnv} {full : SMsg → Bytes} {i : ℕ} {t t' : List (ℕ × MMsg)} {d d' : List (ℕ × ℕ × MMsg)} {r : ℕ} {R R' : MRound}

theorem LVal.grow (h : LVal env full i t d r R) (ht : ∀ x ∈ t, x ∈ t') (hd : SameD i 0 r d d') (h1 : R'.recv = R.recv) (h2 : R'.lock = R.lock) : LVal env full i t' d' r R' := by
  refine ⟨fun j stage v val hm => ?_, fun j v val hl => ?_⟩
  · rw [h1]; exact h.recv j stage v val ((hd _ _ rfl rfl).1 hm)
  · rw [h2] at hl; exact ⟨(h.lock j v val hl).1.mono ht, (h.lock j v val hl).2⟩

theorem LEcho.grow (h : LEcho env i t d r R) (ht : ∀ x ∈ t, x ∈ t') (hd : SameD i 1 r d d') (h1 : R'.send = R.send) (h2 : R'.prop = R.prop) : LEcho env i t' d' r R' := by
  refine ⟨fun sigs hs => ?_, fun sigs hs => ?_⟩
  · rw [h1] at hs
    rw [h2]
    obtain ⟨a, b, c⟩ := h.first sigs hs
    exact ⟨a.congr fun k _ => exists_congr fun sh => hd _ _ rfl rfl, b, fun k sh hm => c k sh ((hd _ _ rfl rfl).1 hm)⟩
  · rw [h1] at hs
    rw [h2]
    obtain ⟨a, b, v, val, c⟩ := h.second sigs hs
    exact ⟨a.congr fun k _ => exists_congr fun sh => hd _ _ rfl rfl, b, v, val, ht _ c⟩

theorem LFin.grow (h : LFin env full i t d r R) (ht : ∀ x ∈ t, x ∈ t') (hd : SameD i 2 r d d') (h1 : R'.fin = R.fin) (h2 : R'.finLen = R.finLen)
    (h3 : R.doneFlag = true → R'.doneFlag = true) : LFin env full i t' d' r R' := by
  refine ⟨fun j v sig hf => ?_, ?_, fun hl => ?_⟩
  · rw [h1] at hf; exact ⟨(h.fin j v sig hf).1.mono ht, (h.fin j v sig hf).2⟩
  · obtain ⟨L, a, b, c⟩ := h.finLen
    exact ⟨L, a, by rw [h2]; exact b, fun k => (c k).trans (and_congr Iff.rfl (exists_congr fun v => exists_congr fun sig => (hd _ _ rfl rfl).symm))⟩
  · rw [h2] at hl; exact h3 (h.flag hl)

theorem LDone.grow (h : LDone env i t d r R) (ht : ∀ x ∈ t, x ∈ t') (hd : SameD i 3 r d d') (h1 : R'.elected = R.elected) (h2 : R'.leader = R.leader)
    (h3 : R'.coins = R.coins) : LDone env i t' d' r R' := by
  refine ⟨fun he => ?_, fun hl => ?_⟩
  · rw [h1] at he; obtain ⟨sh, a⟩ := h.elected he; exact ⟨sh, ht _ a⟩
  · rw [h2] at hl; rw [h3]; exact (h.coins hl).congr fun k _ => exists_congr fun sh => hd _ _ rfl rfl

theorem LPv.grow (h : LPv env full i t d r R) (ht : ∀ x ∈ t, x ∈ t') (hd : SameD i 5 r d d') (h1 : R'.PNr = R.PNr) (h2 : R'.pvOut = R.pvOut)
    (h3 : R'.voteSpawned = R.voteSpawned) (h4 : R'.voted = R.voted) : LPv env full i t' d' r R' := by
  refine ⟨?_, fun k v sig hm => ?_, fun hl => ?_, fun v sig hp => ?_, fun sig hp => ?_, fun hs => ?_, fun hs => ?_⟩
  · rw [h1]; exact h.pn.congr fun k _ => exists_congr fun v => exists_congr fun sig => hd _ _ rfl rfl
  · rw [h2]; exact h.pvYes k v sig ((hd _ _ rfl rfl).1 hm)
  · rw [h1] at hl; rw [h2]; exact h.pvNo hl
  · rw [h2] at hp; exact ⟨(h.pvY v sig hp).1.mono ht, (h.pvY v sig hp).2⟩
  · rw [h2] at hp; exact h.pvN sig hp
  · rw [h3] at hs; obtain ⟨yes, v, sig, a⟩ := h.spawned hs; exact ⟨yes, v, sig, ht _ a⟩
  · rw [h4] at hs; obtain ⟨yes, v, sig, sh, a⟩ := h.voted hs; exact ⟨yes, v, sig, sh, ht _ a⟩

theorem LVote.grow (h : LVote env full i t d r R) (ht : ∀ x ∈ t, x ∈ t') (hd : SameD i 6 r d d') (h1 : R'.VNr = R.VNr) (h2 : R'.VYr = R.VYr)
    (h3 : R'.voteOut = R.voteOut) : LVote env full i t' d' r R' := by
  refine ⟨?_, ?_, ?_, ?_, fun v sig hp => ?_, ?_⟩
  · rw [h1]; exact h.vn.congr fun k _ => exists_congr fun v => exists_congr fun sig => exists_congr fun sh => hd _ _ rfl rfl
  · obtain ⟨v, a, b⟩ := h.vy
    rw [h2]
    exact ⟨v, a.congr fun k _ => exists_congr fun v => exists_congr fun sig => exists_congr fun sh => hd _ _ rfl rfl, fun x => (b x).mono ht⟩
  · rw [h2, h3]; exact h.voY
  · rw [h1, h3]; exact h.voN
  · rw [h3] at hp; exact ⟨(h.voYes v sig hp).1.mono ht, (h.voYes v sig hp).2⟩
  · rw [h1, h2, h3]; exact h.voCount

theorem LRound.grow (h : LRound env full i t d r R) (ht : ∀ x ∈ t, x ∈ t') (hd : ∀ k m, m.rnd = r → ((i, k, m) ∈ d' ↔ (i, k, m) ∈ d)) : LRound env full i t' d' r R where
  val := h.val.grow ht (fun k m _ => hd k m) rfl rfl
  ech := h.ech.grow ht (fun k m _ => hd k m) rfl rfl
  fin := h.fin.grow ht (fun k m _ => hd k m) rfl rfl id
  don := h.don.grow ht (fun k m _ => hd k m) rfl rfl rfl
  pv := h.pv.grow ht (fun k m _ => hd k m) rfl rfl rfl rfl
  vot := h.vot.grow ht (fun k m _ => hd k m) rfl rfl rfl
  halted k v sig hm := h.halted k v sig ((hd _ _ rfl).1 hm)

/-- A round that has not begun. -/
theorem LRound.init (env : MEnv) (full : SMsg → Bytes) (i : ℕ) (t : List (ℕ × MMsg)) {d : List (ℕ × ℕ × MMsg)} {r : ℕ} (hd : ∀ k m, (i, k, m) ∈ d → m.rnd ≠ r) (v val : Bytes) :
    LRound env full i t d r (MRound.init v val) := by
  refine ⟨⟨fun j stage v val hm => ?_, ?_⟩, ⟨fun sigs hs => ?_, ?_⟩, ⟨?_, ⟨[], List.nodup_nil, rfl, fun k => ?_⟩, ?_⟩, ⟨?_, fun _ => ?_⟩, ⟨?_, fun k v sig hm => ?_, ?_, ?_, ?_, ?_, ?_⟩,
    ⟨?_, ⟨[], ?_, ?_⟩, ?_, ?_, ?_, ?_⟩, fun k v sig hm => ?_⟩
  · exact absurd rfl (hd _ _ hm)
  · intro j v val h; cases h
  · cases hs
    exact ⟨Tally.empty fun k ⟨sh, hm⟩ => hd _ _ hm rfl, Nat.zero_le _, fun k sh hm => hd _ _ hm rfl⟩
  · intro sigs h; cases h
  · intro j v val h; cases h
  · refine ⟨fun h => by simp at h, fun ⟨_, v, sig, hm⟩ => absurd rfl (hd _ _ hm)⟩
  · intro h; exact absurd h (by simp [MRound.init])
  · intro h; cases h
  · exact Tally.empty fun k ⟨sh, hm⟩ => hd _ _ hm rfl
  · exact Tally.empty fun k ⟨v, sh, hm⟩ => hd _ _ hm rfl
  · exact absurd rfl (hd _ _ hm)
  · intro h; exact absurd h (by simp [MRound.init])
  · intro v sig h; cases h
  · intro sig h; cases h
  · intro h; cases h
  · intro h; cases h
  · exact Tally.empty fun k ⟨v, sig, sh, hm⟩ => hd _ _ hm rfl
  · exact Tally.empty fun k ⟨v, sig, sh, hm⟩ => hd _ _ hm rfl
  · intro h; exact absurd rfl h
  · intro h; exact absurd h (by simp [MRound.init])
  · intro h; exact absurd h (by simp [MRound.init])
  · intro v sig h; cases h
  · intro h; cases h
  · exact absurd rfl (hd _ _ hm)

end grow

/-- Party `i`. -/
structure LParty (env : MEnv) (full : SMsg → Bytes) (i : ℕ) (t : List (ℕ × MMsg)) (d : List (ℕ × ℕ × MMsg)) (st : MState) : Prop where
  rounds : ∀ r, LRound env full i t d r (st.rounds r)
  dpast : ∀ k m, (i, k, m) ∈ d → m.rnd ≤ st.round
  alive : st.dead = false
  started : ∀ r ≤ st.round, ∃ v val, (i, MMsg.value r i 1 v val) ∈ t
  echo1 : st.phase = .wait → ∀ j, (st.rounds st.round).recv j ≠ .first → ∃ sh, (i, MMsg.echo st.round j 1 sh) ∈ t
  echo2 : st.phase = .wait → ∀ j, (st.rounds st.round).recv j = .ended → ∃ sh, (i, MMsg.echo st.round j 2 sh) ∈ t
  finish : st.phase = .wait → (st.rounds st.round).send = .ended → ∃ v sig, (i, MMsg.finish st.round v sig) ∈ t
  past : ∀ r < st.round, (st.rounds r).voteSpawned = true ∧ (st.rounds r).leader ≠ none
  result : ∀ l, st.phase = .result l → (st.rounds st.round).voteSpawned = true
  halt : ∀ r, (st.rounds r).haltDone = true → st.halt.isSome ∨ st.hasDecided
  haltSent : ∀ r v, st.halt = some (r, v) → ∃ k < env.N, ∃ sig, (k, MMsg.halt r v sig) ∈ t
  decided : ∀ r v, st.phase = .decided r v → ∃ k < env.N, ∃ sig, (k, MMsg.halt r v sig) ∈ t

end DyCAPS

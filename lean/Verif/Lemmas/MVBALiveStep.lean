import Verif.Lemmas.MVBALive

/-!
# Agreement without corrupt parties: every step keeps the invariant of `Lemmas.MVBALive`
-/

namespace DyCAPS

/-- Only messages of round `r` are new. -/
structure DStep (i r : ℕ) (d d' : List (ℕ × ℕ × MMsg)) : Prop where
  sub : ∀ x ∈ d, x ∈ d'
  new : ∀ k m, (i, k, m) ∈ d' → (i, k, m) ∈ d ∨ m.rnd = r

theorem DStep.refl (i r : ℕ) (d : List (ℕ × ℕ × MMsg)) : DStep i r d d := ⟨fun _ h => h, fun _ _ h => Or.inl h⟩

section party
variable {env : MEnv} {full : SMsg → Bytes} {i : ℕ} {t t' : List (ℕ × MMsg)} {d d' : List (ℕ × ℕ × MMsg)} {st : MState}

/-- A step that changes round `r` only. -/
theorem LParty.setRound (h : LParty env full i t d st) (ht : ∀ x ∈ t, x ∈ t') {r : ℕ} (hd : DStep i r d d') (hr : r ≤ st.round) {R : MRound} (hR : LRound env full i t' d' r R)
    (hl : (st.rounds r).leader ≠ none → R.leader ≠ none) (hs : (st.rounds r).voteSpawned = true → R.voteSpawned = true) (hh : R.haltDone = true → (st.rounds r).haltDone = true ∨ st.halt.isSome)
    (h1 : st.phase = .wait → r = st.round → ∀ j, R.recv j ≠ .first → (st.rounds r).recv j ≠ .first ∨ ∃ sh, (i, MMsg.echo r j 1 sh) ∈ t')
    (h2 : st.phase = .wait → r = st.round → ∀ j, R.recv j = .ended → (st.rounds r).recv j = .ended ∨ ∃ sh, (i, MMsg.echo r j 2 sh) ∈ t')
    (h3 : st.phase = .wait → r = st.round → R.send = .ended → (st.rounds r).send = .ended ∨ ∃ v sig, (i, MMsg.finish r v sig) ∈ t') :
    LParty env full i t' d' (st.setRound r R) := by
  refine ⟨fun r' => ?_, fun k m hm => ?_, h.alive, fun r' hr' => ?_, fun hp j hj => ?_, fun hp j hj => ?_, fun hp hj => ?_, fun r' hr' => ?_, fun l hp => ?_, fun r' hx => ?_, fun r' v hx => ?_, fun r' v hx => ?_⟩
  · rw [setRound_rounds]
    split
    · rename_i e; subst e; exact hR
    · rename_i e
      exact (h.rounds r').grow ht fun k m hm => ⟨fun x => (hd.new k m x).resolve_right fun y => e (hm.symm.trans y), hd.sub _⟩
  · rcases hd.new k m hm with x | x
    · exact h.dpast k m x
    · rw [x]; exact hr
  · obtain ⟨v, val, x⟩ := h.started r' hr'; exact ⟨v, val, ht _ x⟩
  · rw [setRound_rounds] at hj
    rw [setRound_round] at hj ⊢
    split at hj
    · rename_i e
      rcases h1 hp e.symm j hj with x | x
      · rw [← e] at x
        obtain ⟨sh, y⟩ := h.echo1 hp j x
        exact ⟨sh, ht _ y⟩
      · rw [e]; exact x
    · obtain ⟨sh, y⟩ := h.echo1 hp j hj
      exact ⟨sh, ht _ y⟩
  · rw [setRound_rounds] at hj
    rw [setRound_round] at hj ⊢
    split at hj
    · rename_i e
      rcases h2 hp e.symm j hj with x | x
      · rw [← e] at x
        obtain ⟨sh, y⟩ := h.echo2 hp j x
        exact ⟨sh, ht _ y⟩
      · rw [e]; exact x
    · obtain ⟨sh, y⟩ := h.echo2 hp j hj
      exact ⟨sh, ht _ y⟩
  · rw [setRound_rounds] at hj
    rw [setRound_round] at hj ⊢
    split at hj
    · rename_i e
      rcases h3 hp e.symm hj with x | x
      · rw [← e] at x
        obtain ⟨v, sig, y⟩ := h.finish hp x
        exact ⟨v, sig, ht _ y⟩
      · rw [e]; exact x
    · obtain ⟨v, sig, y⟩ := h.finish hp hj
      exact ⟨v, sig, ht _ y⟩
  · rw [setRound_rounds]
    split
    · rename_i e; subst e
      exact ⟨hs (h.past r' hr').1, hl (h.past r' hr').2⟩
    · exact h.past r' hr'
  · rw [setRound_rounds, setRound_round]
    split
    · rename_i e; exact hs (by rw [← e]; exact h.result l hp)
    · exact h.result l hp
  · rw [setRound_rounds] at hx
    split at hx
    · exact (hh hx).elim (h.halt r) Or.inl
    · exact h.halt r' hx
  · obtain ⟨k, hk, sig, x⟩ := h.haltSent r' v hx; exact ⟨k, hk, sig, ht _ x⟩
  · obtain ⟨k, hk, sig, x⟩ := h.decided r' v hx; exact ⟨k, hk, sig, ht _ x⟩

/-- A step of another party. -/
theorem LParty.others (h : LParty env full i t d st) (ht : ∀ x ∈ t, x ∈ t') (hd : ∀ k m, (i, k, m) ∈ d' ↔ (i, k, m) ∈ d) : LParty env full i t' d' st where
  rounds r := (h.rounds r).grow ht fun k m _ => hd k m
  dpast k m hm := h.dpast k m ((hd k m).1 hm)
  alive := h.alive
  started r hr := by obtain ⟨v, val, x⟩ := h.started r hr; exact ⟨v, val, ht _ x⟩
  echo1 hp j hj := by obtain ⟨sh, x⟩ := h.echo1 hp j hj; exact ⟨sh, ht _ x⟩
  echo2 hp j hj := by obtain ⟨sh, x⟩ := h.echo2 hp j hj; exact ⟨sh, ht _ x⟩
  finish hp hj := by obtain ⟨v, sig, x⟩ := h.finish hp hj; exact ⟨v, sig, ht _ x⟩
  past := h.past
  result := h.result
  halt := h.halt
  haltSent r v hx := by obtain ⟨k, hk, sig, x⟩ := h.haltSent r v hx; exact ⟨k, hk, sig, ht _ x⟩
  decided r v hx := by obtain ⟨k, hk, sig, x⟩ := h.decided r v hx; exact ⟨k, hk, sig, ht _ x⟩

/-- Party `i` moves to another point of the same round. -/
theorem LParty.move (h : LParty env full i t d st) {st' : MState} (e1 : st'.rounds = st.rounds) (e2 : st'.round = st.round) (e3 : st'.dead = st.dead) (hp : st'.phase ≠ .wait)
    (hres : ∀ l, st'.phase = .result l → (st.rounds st.round).voteSpawned = true) (hh : ∀ r, (st.rounds r).haltDone = true → st'.halt.isSome ∨ st'.hasDecided)
    (hs : ∀ r v, st'.halt = some (r, v) → ∃ k < env.N, ∃ sig, (k, MMsg.halt r v sig) ∈ t) (hdec : ∀ r v, st'.phase = .decided r v → ∃ k < env.N, ∃ sig, (k, MMsg.halt r v sig) ∈ t) :
    LParty env full i t d st' where
  rounds := by rw [e1]; exact h.rounds
  dpast := by rw [e2]; exact h.dpast
  alive := by rw [e3]; exact h.alive
  started := by rw [e2]; exact h.started
  echo1 x := absurd x hp
  echo2 x := absurd x hp
  finish x := absurd x hp
  past := by rw [e1, e2]; exact h.past
  result := by rw [e1, e2]; exact hres
  halt := by rw [e1]; exact hh
  haltSent := hs
  decided := hdec

/-- What is known around a step of party `i`. -/
structure LCtx (env : MEnv) (full : SMsg → Bytes) (i : ℕ) (t : List (ℕ × MMsg)) (d : List (ℕ × ℕ × MMsg)) (st : MState) : Prop where
  ok : SchemeOk env full
  lt : i < env.N
  uniq : ∀ r j v v', j < env.N → Val t r j v → Val t r j v' → v = v'
  prop : ∀ r v, Val t r i v → v = (st.rounds r).prop.1
  lead : ∀ r l, (st.rounds r).leader = some l → l = coinLeader env full r
  sent : ∀ k m, (k, m) ∈ t → LSent env full k t m
  log : ∀ k m, (i, k, m) ∈ d → (k, m) ∈ t
  join : ∀ l, st.phase = .join l ∨ st.phase = .result l → (st.rounds st.round).leader = some l

theorem LCtx.llt (c : LCtx env full i t d st) (r : ℕ) : coinLeader env full r < env.N := leaderOf_lt (by have := c.lt; omega) _

/-- Message `m` of party `q` is delivered. -/
structure Dlv (env : MEnv) (i : ℕ) (t : List (ℕ × MMsg)) (d : List (ℕ × ℕ × MMsg)) (q : ℕ) (m : MMsg) (d' : List (ℕ × ℕ × MMsg)) : Prop where
  lt : q < env.N
  sent : (q, m) ∈ t
  fresh : (i, q, m) ∉ d
  eq : d' = d ++ [(i, q, m)]

section dlv
variable {q : ℕ} {m : MMsg}

theorem Dlv.mem (h : Dlv env i t d q m d') (k : ℕ) (m' : MMsg) : (i, k, m') ∈ d' ↔ (i, k, m') ∈ d ∨ (k = q ∧ m' = m) := by rw [h.eq]; simp

theorem Dlv.step (h : Dlv env i t d q m d') {r : ℕ} (hr : m.rnd = r) : DStep i r d d' :=
  ⟨fun x hx => by rw [h.eq]; exact List.mem_append_left _ hx, fun k m' hm => ((h.mem k m').1 hm).imp id fun ⟨_, e⟩ => by rw [e]; exact hr⟩

theorem Dlv.same (h : Dlv env i t d q m d') {c : ℕ} (hc : m.kind ≠ c) (r : ℕ) : SameD i c r d d' := fun k m' hk _ => by
  rw [h.mem]
  refine ⟨fun x => x.resolve_right ?_, Or.inl⟩
  rintro ⟨-, rfl⟩
  exact hc hk

end dlv

theorem LParty.onValue (h : LParty env full i t d st) (c : LCtx env full i t d st) {q r j stage : ℕ} {v val : Bytes} (hq : Dlv env i t d q (.value r j stage v val) d') (ht : ∀ x ∈ t, x ∈ t')
    {o : MOut} (ho : onValue env st r j stage v val = some o) (hm : ∀ m ∈ o.msgs ++ o.signed.flatMap (echoOf env i), (i, m) ∈ t') :
    LParty env full i t' d' o.st ∧ ∀ m ∈ o.msgs ++ o.signed.flatMap (echoOf env i), LSent env full i t' m := by
  obtain ⟨rfl, hst⟩ := c.sent _ _ hq.sent
  have hv : Val t' r j v := ⟨stage, val, ht _ hq.sent⟩
  have hR := h.rounds r
  unfold DyCAPS.onValue at ho
  simp only at ho
  split at ho
  · rename_i hr
    split at ho
    · rename_i hpos
      cases ho
      simp only [echoOf, List.flatMap_cons, List.flatMap_nil, List.append_nil, List.nil_append, List.mem_singleton, forall_eq] at hm ⊢
      refine ⟨h.setRound ht (hq.step rfl) hr.1 ⟨⟨fun j' s' v' val' hd => ?_, fun j' v' val' hl => ?_⟩, hR.ech.grow ht (hq.same (by simp [MMsg.kind]) r) rfl rfl, hR.fin.grow ht (hq.same (by simp [MMsg.kind]) r) rfl rfl id,
        hR.don.grow ht (hq.same (by simp [MMsg.kind]) r) rfl rfl rfl, hR.pv.grow ht (hq.same (by simp [MMsg.kind]) r) rfl rfl rfl rfl, hR.vot.grow ht (hq.same (by simp [MMsg.kind]) r) rfl rfl rfl,
        fun k v' sig hd => ?_⟩ id id Or.inl (fun _ _ j' hj' => ?_) (fun _ _ j' hj' => ?_) (fun _ _ => Or.inl), v, hv, rfl⟩
      · simp only
        rcases (hq.mem _ _).1 hd with hd | ⟨e, e'⟩
        · have := hR.val.recv j' s' v' val' hd
          split
          · rename_i e; rw [e] at this; exact absurd hpos this.1
          · exact this
        · cases e'
          rw [if_pos rfl]
          exact ⟨by simp, by simp⟩
      · obtain ⟨a, b⟩ := hR.val.lock j' v' val' hl
        exact ⟨a.mono ht, b⟩
      · exact hR.halted k v' sig (((hq.mem _ _).1 hd).resolve_right (by rintro ⟨-, e⟩; cases e))
      · simp only at hj'
        split at hj'
        · rename_i e; subst e; exact Or.inr ⟨_, hm⟩
        · exact Or.inl hj'
      · simp only at hj'
        split at hj'
        · cases hj'
        · exact Or.inl hj'
    · rename_i hpos
      have hval := (hst.resolve_left (by decide)).2
      rw [hval, if_pos (c.ok.cert_full _)] at ho
      cases ho
      simp only [echoOf, List.flatMap_cons, List.flatMap_nil, List.append_nil, List.nil_append, List.mem_singleton, forall_eq] at hm ⊢
      refine ⟨h.setRound ht (hq.step rfl) hr.1 ⟨⟨fun j' s' v' val' hd => ?_, fun j' v' val' hl => ?_⟩, hR.ech.grow ht (hq.same (by simp [MMsg.kind]) r) rfl rfl, hR.fin.grow ht (hq.same (by simp [MMsg.kind]) r) rfl rfl id,
        hR.don.grow ht (hq.same (by simp [MMsg.kind]) r) rfl rfl rfl, hR.pv.grow ht (hq.same (by simp [MMsg.kind]) r) rfl rfl rfl rfl, hR.vot.grow ht (hq.same (by simp [MMsg.kind]) r) rfl rfl rfl,
        fun k v' sig hd => ?_⟩ id id Or.inl (fun _ _ j' hj' => ?_) (fun _ _ j' hj' => ?_) (fun _ _ => Or.inl), v, hv, rfl⟩
      · simp only
        split
        · exact ⟨by simp, fun _ => rfl⟩
        · rename_i e
          rcases (hq.mem _ _).1 hd with hd | ⟨e', e''⟩
          · exact hR.val.recv j' s' v' val' hd
          · exact absurd e' e
      · simp only at hl
        split at hl
        · rename_i e; subst e; cases hl; exact ⟨hv, rfl⟩
        · obtain ⟨a, b⟩ := hR.val.lock j' v' val' hl
          exact ⟨a.mono ht, b⟩
      · exact hR.halted k v' sig (((hq.mem _ _).1 hd).resolve_right (by rintro ⟨-, e⟩; cases e))
      · simp only at hj'
        split at hj'
        · rename_i e; subst e; left; exact fun x => by have := hpos.symm.trans x; cases this
        · exact Or.inl hj'
      · simp only at hj'
        split at hj'
        · rename_i e; subst e; exact Or.inr ⟨_, hm⟩
        · exact Or.inl hj'
    · cases ho
  · cases ho

theorem LParty.onEchoShare (h : LParty env full i t d st) (c : LCtx env full i t d st) {q r j stage : ℕ} {sh : Bytes} (hq : Dlv env i t d q (.echo r j stage sh) d') (ht : ∀ x ∈ t, x ∈ t')
    {o : MOut} (ho : onEchoShare env i st r j stage sh = some o) (hm : ∀ m ∈ o.msgs, (i, m) ∈ t') :
    LParty env full i t' d' o.st ∧ ∀ m ∈ o.msgs, LSent env full i t' m := by
  obtain ⟨v, hv, rfl⟩ := c.sent _ _ hq.sent
  have hR := h.rounds r
  unfold DyCAPS.onEchoShare at ho
  simp only at ho
  split at ho
  · rename_i hr
    obtain ⟨hr, rfl⟩ := hr
    have hvp := c.prop r v hv
    subst hvp
    have hsh := c.ok.share_sign q hq.lt
    have hval := hR.val.grow ht (hq.same (by simp [MMsg.kind]) r) rfl rfl
    have hfin := hR.fin.grow ht (hq.same (by simp [MMsg.kind]) r) rfl rfl id
    have hdon := hR.don.grow ht (hq.same (by simp [MMsg.kind]) r) rfl rfl rfl
    have hpv := hR.pv.grow ht (hq.same (by simp [MMsg.kind]) r) rfl rfl rfl rfl
    have hvot := hR.vot.grow ht (hq.same (by simp [MMsg.kind]) r) rfl rfl rfl
    have hhl : ∀ k v' sig, (j, k, MMsg.halt r v' sig) ∈ d' → (st.rounds r).haltDone = true := fun k v' sig hd =>
      hR.halted k v' sig (((hq.mem _ _).1 hd).resolve_right (by rintro ⟨-, e⟩; cases e))
    have hR' : ∀ p, LEcho env j t' d' r { st.rounds r with send := p } → LRound env full j t' d' r { st.rounds r with send := p } := fun p he =>
      ⟨⟨hval.recv, hval.lock⟩, he, ⟨hfin.fin, hfin.finLen, hfin.flag⟩, ⟨hdon.elected, hdon.coins⟩, ⟨hpv.pn, hpv.pvYes, hpv.pvNo, hpv.pvY, hpv.pvN, hpv.spawned, hpv.voted⟩,
        ⟨hvot.vn, hvot.vy, hvot.voY, hvot.voN, hvot.voYes, hvot.voCount⟩, hhl⟩
    have htal : ∀ sigs, Tally env sigs (.echo r j stage (env.hash (st.rounds r).prop.1)) (fun k => ∃ sh, (j, k, MMsg.echo r j stage sh) ∈ d) →
        Tally env (sigs ++ [env.sign q (.echo r j stage (env.hash (st.rounds r).prop.1))]) (.echo r j stage (env.hash (st.rounds r).prop.1)) (fun k => ∃ sh, (j, k, MMsg.echo r j stage sh) ∈ d') := by
      intro sigs hs
      refine hs.add hq.lt ?_ fun k => ?_
      · rintro ⟨sh', hd⟩
        obtain ⟨v', hv', e⟩ := c.sent _ _ (c.log _ _ hd)
        rw [c.uniq r j v' _ c.lt hv' hv] at e
        subst e
        exact hq.fresh hd
      · constructor
        · rintro ⟨sh', hd⟩
          rcases (hq.mem _ _).1 hd with hd | ⟨e, -⟩
          · exact Or.inl ⟨sh', hd⟩
          · exact Or.inr e
        · rintro (⟨sh', hd⟩ | rfl)
          · exact ⟨sh', (hq.mem _ _).2 (Or.inl hd)⟩
          · exact ⟨_, (hq.mem _ _).2 (Or.inr ⟨rfl, rfl⟩)⟩
    split at ho
    · rename_i sigs hsend
      obtain ⟨a, b, e⟩ := hR.ech.first sigs hsend
      rw [hsh, if_pos (show (some q).isSome = true from rfl)] at ho
      have hno2 : ∀ k sh, (j, k, MMsg.echo r j 2 sh) ∉ d' := by
        intro k sh hd
        rcases (hq.mem _ _).1 hd with hd | ⟨-, e'⟩
        · exact e k sh hd
        · cases e'
      split at ho
      · rename_i hlen
        rw [(htal sigs a).recover c.ok hlen] at ho
        cases ho
        simp only [List.mem_singleton, forall_eq, Option.getD_some] at hm ⊢
        refine ⟨h.setRound ht (hq.step rfl) hr (hR' _ ⟨fun s' hs' => (by cases hs'), fun s' hs' => ?_⟩) id id Or.inl (fun _ _ _ => Or.inl) (fun _ _ _ => Or.inl) (fun _ _ hs' => (by cases hs')),
          rfl, Or.inr ⟨rfl, rfl⟩⟩
        cases hs'
        exact ⟨Tally.empty fun k ⟨sh, hd⟩ => hno2 k sh hd, Nat.zero_le _, _, _, hm⟩
      · rename_i hlen
        cases ho
        refine ⟨h.setRound ht (hq.step rfl) hr (hR' _ ⟨fun s' hs' => ?_, fun s' hs' => (by cases hs')⟩) id id Or.inl (fun _ _ _ => Or.inl) (fun _ _ _ => Or.inl) (fun _ _ hs' => (by cases hs')), by simp⟩
        cases hs'
        exact ⟨htal sigs a, by omega, hno2⟩
    · rename_i sigs hsend
      obtain ⟨a, b, e⟩ := hR.ech.second sigs hsend
      rw [hsh, if_pos (show (some q).isSome = true from rfl)] at ho
      split at ho
      · rename_i hlen
        rw [(htal sigs a).recover c.ok hlen] at ho
        cases ho
        simp only [List.mem_singleton, forall_eq, Option.getD_some] at hm ⊢
        refine ⟨h.setRound ht (hq.step rfl) hr (hR' _ ⟨fun s' hs' => (by cases hs'), fun s' hs' => (by cases hs')⟩) id id Or.inl (fun _ _ _ => Or.inl) (fun _ _ _ => Or.inl)
          (fun _ _ _ => Or.inr ⟨_, _, hm⟩), hv.mono ht, rfl⟩
      · rename_i hlen
        cases ho
        refine ⟨h.setRound ht (hq.step rfl) hr (hR' _ ⟨fun s' hs' => (by cases hs'), fun s' hs' => ?_⟩) id id Or.inl (fun _ _ _ => Or.inl) (fun _ _ _ => Or.inl) (fun _ _ hs' => (by cases hs')), by simp⟩
        cases hs'
        obtain ⟨v', val', e⟩ := e
        exact ⟨htal sigs a, by omega, v', val', ht _ e⟩
    · cases ho
  · cases ho

theorem LParty.onFinish (h : LParty env full i t d st) (c : LCtx env full i t d st) {q r : ℕ} {v sig : Bytes} (hq : Dlv env i t d q (.finish r v sig) d') (ht : ∀ x ∈ t, x ∈ t')
    {o : MOut} (ho : onFinish env st r q v sig = some o) : LParty env full i t' d' o.st ∧ o.msgs = [] := by
  obtain ⟨hv, rfl⟩ := c.sent _ _ hq.sent
  have hR := h.rounds r
  unfold DyCAPS.onFinish at ho
  simp only at ho
  rw [if_pos hq.lt, if_pos (c.ok.cert_full _)] at ho
  split at ho
  · rename_i hr
    cases ho
    refine ⟨h.setRound ht (hq.step rfl) hr ⟨hR.val.grow ht (hq.same (by simp [MMsg.kind]) r) rfl rfl, hR.ech.grow ht (hq.same (by simp [MMsg.kind]) r) rfl rfl, ⟨fun j v' sig' hf => ?_, ?_, fun hl => ?_⟩,
      hR.don.grow ht (hq.same (by simp [MMsg.kind]) r) rfl rfl rfl, hR.pv.grow ht (hq.same (by simp [MMsg.kind]) r) rfl rfl rfl rfl, hR.vot.grow ht (hq.same (by simp [MMsg.kind]) r) rfl rfl rfl,
      fun k v' sig' hd => ?_⟩ id id Or.inl (fun _ _ _ => Or.inl) (fun _ _ _ => Or.inl) (fun _ _ => Or.inl), rfl⟩
    · simp only at hf
      split at hf
      · rename_i e; subst e; cases hf; exact ⟨hv.mono ht, rfl⟩
      · obtain ⟨a, b⟩ := hR.fin.fin j v' sig' hf
        exact ⟨a.mono ht, b⟩
    · obtain ⟨L, a, b, e⟩ := hR.fin.finLen
      have hn : q ∉ L := by
        intro hL
        obtain ⟨-, v', sig', hd⟩ := (e q).1 hL
        obtain ⟨hv', rfl⟩ := c.sent _ _ (c.log _ _ hd)
        rw [c.uniq r q v' v hq.lt hv' hv] at hd
        exact hq.fresh hd
      refine ⟨L ++ [q], ?_, by simp [b], fun k => ?_⟩
      · rw [List.nodup_append]
        refine ⟨a, by simp, ?_⟩
        rintro x hx y hy rfl
        rw [List.mem_singleton] at hy
        subst hy
        exact hn hx
      · rw [List.mem_append, List.mem_singleton, e]
        constructor
        · rintro (⟨x, v', sig', hd⟩ | rfl)
          · exact ⟨x, v', sig', (hq.mem _ _).2 (Or.inl hd)⟩
          · exact ⟨hq.lt, _, _, (hq.mem _ _).2 (Or.inr ⟨rfl, rfl⟩)⟩
        · rintro ⟨x, v', sig', hd⟩
          rcases (hq.mem _ _).1 hd with hd | ⟨e', -⟩
          · exact Or.inl ⟨x, v', sig', hd⟩
          · exact Or.inr e'
    · simp only at hl ⊢
      rw [Bool.or_eq_true, decide_eq_true_eq]
      by_cases hx : 2 * env.F + 1 ≤ (st.rounds r).finLen
      · exact Or.inl (hR.fin.flag hx)
      · right; omega
    · exact hR.halted k v' sig' (((hq.mem _ _).1 hd).resolve_right (by rintro ⟨-, e⟩; cases e))
  · cases ho

theorem LParty.onDone (h : LParty env full i t d st) (c : LCtx env full i t d st) {q r : ℕ} {sh : Bytes} (hq : Dlv env i t d q (.done r sh) d') (ht : ∀ x ∈ t, x ∈ t')
    {o : MOut} (ho : onDone env st r sh = some o) : LParty env full i t' d' o.st ∧ o.msgs = [] := by
  obtain rfl := c.sent _ _ hq.sent
  have hR := h.rounds r
  unfold DyCAPS.onDone at ho
  simp only at ho
  rw [c.ok.share_sign q hq.lt, if_pos (show (some q).isSome = true from rfl)] at ho
  split at ho
  · rename_i hr
    cases ho
    refine ⟨h.setRound ht (hq.step rfl) hr.1 ⟨hR.val.grow ht (hq.same (by simp [MMsg.kind]) r) rfl rfl, hR.ech.grow ht (hq.same (by simp [MMsg.kind]) r) rfl rfl,
      hR.fin.grow ht (hq.same (by simp [MMsg.kind]) r) rfl rfl (fun x => by simp only; rw [x]; rfl), ⟨fun he => ?_, fun hl => ?_⟩, hR.pv.grow ht (hq.same (by simp [MMsg.kind]) r) rfl rfl rfl rfl,
      hR.vot.grow ht (hq.same (by simp [MMsg.kind]) r) rfl rfl rfl, fun k v' sig' hd => ?_⟩ (fun x => absurd hr.2 x) id Or.inl (fun _ _ _ => Or.inl) (fun _ _ _ => Or.inl) (fun _ _ => Or.inl), rfl⟩
    · obtain ⟨sh, a⟩ := hR.don.elected he; exact ⟨sh, ht _ a⟩
    · refine (hR.don.coins hr.2).add hq.lt ?_ fun k => ?_
      · rintro ⟨sh', hd⟩
        obtain rfl := c.sent _ _ (c.log _ _ hd)
        exact hq.fresh hd
      · constructor
        · rintro ⟨sh', hd⟩
          rcases (hq.mem _ _).1 hd with hd | ⟨e, -⟩
          · exact Or.inl ⟨sh', hd⟩
          · exact Or.inr e
        · rintro (⟨sh', hd⟩ | rfl)
          · exact ⟨sh', (hq.mem _ _).2 (Or.inl hd)⟩
          · exact ⟨_, (hq.mem _ _).2 (Or.inr ⟨rfl, rfl⟩)⟩
    · exact hR.halted k v' sig' (((hq.mem _ _).1 hd).resolve_right (by rintro ⟨-, e⟩; cases e))
  · cases ho

theorem LParty.setHalt (h : LParty env full i t d st) {r q : ℕ} {v sig : Bytes} (hq : q < env.N) (hs : (q, MMsg.halt r v sig) ∈ t) : LParty env full i t d { st with halt := some (r, v) } where
  rounds := h.rounds
  dpast := h.dpast
  alive := h.alive
  started := h.started
  echo1 := h.echo1
  echo2 := h.echo2
  finish := h.finish
  past := h.past
  result := h.result
  halt _ _ := Or.inl rfl
  haltSent r' v' hx := by cases hx; exact ⟨q, hq, sig, hs⟩
  decided := h.decided

theorem LParty.onHalt (h : LParty env full i t d st) (c : LCtx env full i t d st) {q r : ℕ} {v sig : Bytes} (hq : Dlv env i t d q (.halt r v sig) d') (ht : ∀ x ∈ t, x ∈ t')
    {o : MOut} (ho : onHalt env st r v sig = some o) : LParty env full i t' d' o.st ∧ o.msgs = [] := by
  obtain ⟨hv, rfl⟩ := c.sent _ _ hq.sent
  unfold DyCAPS.onHalt at ho
  simp only at ho
  split at ho
  · cases ho
  · rename_i l hl
    obtain rfl := c.lead r l hl
    rw [if_pos (c.ok.cert_full _)] at ho
    split at ho
    · rename_i hr
      split at ho
      · cases ho
      · cases ho
        have h' := h.setHalt hq.lt hq.sent
        have hR := h.rounds r
        exact ⟨h'.setRound ht (hq.step rfl) hr.1 ⟨hR.val.grow ht (hq.same (by simp [MMsg.kind]) r) rfl rfl, hR.ech.grow ht (hq.same (by simp [MMsg.kind]) r) rfl rfl,
          hR.fin.grow ht (hq.same (by simp [MMsg.kind]) r) rfl rfl id, hR.don.grow ht (hq.same (by simp [MMsg.kind]) r) rfl rfl rfl, hR.pv.grow ht (hq.same (by simp [MMsg.kind]) r) rfl rfl rfl rfl,
          hR.vot.grow ht (hq.same (by simp [MMsg.kind]) r) rfl rfl rfl, fun _ _ _ _ => rfl⟩ id id (fun _ => Or.inr rfl) (fun _ _ _ => Or.inl) (fun _ _ _ => Or.inl) (fun _ _ => Or.inl), rfl⟩
    · cases ho

theorem or_isSome {α : Type*} (a : Option α) (b : α) : (a.or (some b)).isSome := by cases a <;> rfl

theorem or_cases {α : Type*} {a : Option α} {b x : α} (h : a.or (some b) = some x) : a = some x ∨ b = x := by
  cases a with
  | none => right; simpa using h
  | some y => left; simpa using h

theorem LParty.onPreVote (h : LParty env full i t d st) (c : LCtx env full i t d st) {q r : ℕ} {yes : Bool} {v sig : Bytes} (hq : Dlv env i t d q (.prevote r yes v sig) d') (ht : ∀ x ∈ t, x ∈ t')
    {o : MOut} (ho : onPreVote env st r yes v sig = some o) : LParty env full i t' d' o.st ∧ o.msgs = [] := by
  obtain ⟨hy, hn⟩ := c.sent _ _ hq.sent
  have hR := h.rounds r
  have hval := hR.val.grow ht (hq.same (by simp [MMsg.kind]) r) rfl rfl
  have hech := hR.ech.grow ht (hq.same (by simp [MMsg.kind]) r) rfl rfl
  have hfin := hR.fin.grow ht (hq.same (by simp [MMsg.kind]) r) rfl rfl id
  have hdon := hR.don.grow ht (hq.same (by simp [MMsg.kind]) r) rfl rfl rfl
  have hvot := hR.vot.grow ht (hq.same (by simp [MMsg.kind]) r) rfl rfl rfl
  have hhl : ∀ k v' sig, (i, k, MMsg.halt r v' sig) ∈ d' → (st.rounds r).haltDone = true := fun k v' sig hd =>
    hR.halted k v' sig (((hq.mem _ _).1 hd).resolve_right (by rintro ⟨-, e⟩; cases e))
  have hR' : ∀ a b, LPv env full i t' d' r { st.rounds r with PNr := a, pvOut := b } → LRound env full i t' d' r { st.rounds r with PNr := a, pvOut := b } := fun a b he =>
    ⟨⟨hval.recv, hval.lock⟩, ⟨hech.first, hech.second⟩, ⟨hfin.fin, hfin.finLen, hfin.flag⟩, ⟨hdon.elected, hdon.coins⟩, he,
      ⟨hvot.vn, hvot.vy, hvot.voY, hvot.voN, hvot.voYes, hvot.voCount⟩, hhl⟩
  have hset : ∀ a b, r ≤ st.round → LPv env full i t' d' r { st.rounds r with PNr := a, pvOut := b } → LParty env full i t' d' (st.setRound r { st.rounds r with PNr := a, pvOut := b }) := fun a b hr he =>
    h.setRound ht (hq.step rfl) hr (hR' a b he) id id Or.inl (fun _ _ _ => Or.inl) (fun _ _ _ => Or.inl) (fun _ _ => Or.inl)
  have hsp : (st.rounds r).voteSpawned = true → ∃ yes v sig, (i, MMsg.prevote r yes v sig) ∈ t' := fun x => by
    obtain ⟨a, b, e, f⟩ := hR.pv.spawned x; exact ⟨a, b, e, ht _ f⟩
  have hvd : (st.rounds r).voted = true → ∃ yes v sig sh, (i, MMsg.vote r yes v sig sh) ∈ t' := fun x => by
    obtain ⟨a, b, e, g, f⟩ := hR.pv.voted x; exact ⟨a, b, e, g, ht _ f⟩
  unfold DyCAPS.onPreVote at ho
  simp only at ho
  split at ho
  · cases ho
  · rename_i l hl
    obtain rfl := c.lead r l hl
    split at ho
    · rename_i hr
      split at ho
      · rename_i e
        subst e
        obtain ⟨hv, rfl⟩ := hy rfl
        rw [if_pos (c.ok.cert_full _)] at ho
        cases ho
        refine ⟨hset (st.rounds r).PNr _ hr ⟨?_, fun k v' sig' _ => or_isSome _ _, fun _ => or_isSome _ _, fun v' sig' hp => ?_, fun sig' hp => ?_, hsp, hvd⟩, rfl⟩
        · refine hR.pv.pn.congr fun k _ => exists_congr fun v' => exists_congr fun sig' => ?_
          rw [hq.mem]
          exact ⟨fun x => x.resolve_right (by rintro ⟨-, e⟩; cases e), Or.inl⟩
        · rcases or_cases hp with hp | e
          · obtain ⟨a, b⟩ := hR.pv.pvY v' sig' hp
            exact ⟨a.mono ht, b⟩
          · cases e; exact ⟨hv.mono ht, rfl⟩
        · rcases or_cases hp with hp | e
          · exact hR.pv.pvN sig' hp
          · cases e
      · rename_i e
        have e : yes = false := by simpa using e
        subst e
        obtain ⟨rfl, rfl⟩ := hn rfl
        rw [c.ok.share_sign q hq.lt, if_pos (show (some q).isSome = true from rfl)] at ho
        cases ho
        have htal : Tally env ((st.rounds r).PNr ++ [env.sign q (.no r)]) (.no r) (fun k => ∃ v sig, (i, k, MMsg.prevote r false v sig) ∈ d') := by
          refine hR.pv.pn.add hq.lt ?_ fun k => ?_
          · rintro ⟨v', sig', hd⟩
            obtain ⟨rfl, rfl⟩ := (c.sent _ _ (c.log _ _ hd)).2 rfl
            exact hq.fresh hd
          · constructor
            · rintro ⟨v', sig', hd⟩
              rcases (hq.mem _ _).1 hd with hd | ⟨e, -⟩
              · exact Or.inl ⟨v', sig', hd⟩
              · exact Or.inr e
            · rintro (⟨v', sig', hd⟩ | rfl)
              · exact ⟨v', sig', (hq.mem _ _).2 (Or.inl hd)⟩
              · exact ⟨_, _, (hq.mem _ _).2 (Or.inr ⟨rfl, rfl⟩)⟩
        refine ⟨hset _ _ hr ⟨htal, fun k v' sig' hd => ?_, fun hl => ?_, fun v' sig' hp => ?_, fun sig' hp => ?_, hsp, hvd⟩, rfl⟩
        · have := hR.pv.pvYes k v' sig' (((hq.mem _ _).1 hd).resolve_right (by rintro ⟨-, e⟩; cases e))
          simp only
          split
          · exact or_isSome _ _
          · exact this
        · simp only at hl ⊢
          rw [if_pos (by omega)]
          exact or_isSome _ _
        · simp only at hp
          have hp' : (st.rounds r).pvOut = some (.yes v' sig') := by
            split at hp
            · exact (or_cases hp).resolve_right (by intro e; cases e)
            · exact hp
          obtain ⟨a, b⟩ := hR.pv.pvY v' sig' hp'
          exact ⟨a.mono ht, b⟩
        · simp only at hp
          split at hp
          · rename_i hlen
            rcases or_cases hp with hp | e
            · exact hR.pv.pvN sig' hp
            · rw [htal.recover c.ok hlen] at e
              cases e; rfl
          · exact hR.pv.pvN sig' hp
    · cases ho

theorem Tally.nil_any {env : MEnv} {m : SMsg} {P : ℕ → Prop} (h : Tally env [] m P) (m' : SMsg) : Tally env [] m' P := by
  obtain ⟨L, a, b, c⟩ := h
  have : L = [] := List.map_eq_nil_iff.1 b.symm
  subst this
  exact ⟨[], a, rfl, c⟩

theorem LParty.onVote (h : LParty env full i t d st) (c : LCtx env full i t d st) {q r : ℕ} {yes : Bool} {v sig sh : Bytes} (hq : Dlv env i t d q (.vote r yes v sig sh) d') (ht : ∀ x ∈ t, x ∈ t')
    {o : MOut} (ho : onVote env st r yes v sig sh = some o) : LParty env full i t' d' o.st ∧ o.msgs = [] := by
  obtain ⟨hy, hn⟩ := c.sent _ _ hq.sent
  have hR := h.rounds r
  have hval := hR.val.grow ht (hq.same (by simp [MMsg.kind]) r) rfl rfl
  have hech := hR.ech.grow ht (hq.same (by simp [MMsg.kind]) r) rfl rfl
  have hfin := hR.fin.grow ht (hq.same (by simp [MMsg.kind]) r) rfl rfl id
  have hdon := hR.don.grow ht (hq.same (by simp [MMsg.kind]) r) rfl rfl rfl
  have hpv := hR.pv.grow ht (hq.same (by simp [MMsg.kind]) r) rfl rfl rfl rfl
  have hhl : ∀ k v' sig, (i, k, MMsg.halt r v' sig) ∈ d' → (st.rounds r).haltDone = true := fun k v' sig hd =>
    hR.halted k v' sig (((hq.mem _ _).1 hd).resolve_right (by rintro ⟨-, e⟩; cases e))
  have hset : ∀ a b x, r ≤ st.round → LVote env full i t' d' r { st.rounds r with VYr := a, VNr := b, voteOut := x } →
      LParty env full i t' d' (st.setRound r { st.rounds r with VYr := a, VNr := b, voteOut := x }) := fun a b x hr he =>
    h.setRound ht (hq.step rfl) hr ⟨⟨hval.recv, hval.lock⟩, ⟨hech.first, hech.second⟩, ⟨hfin.fin, hfin.finLen, hfin.flag⟩, ⟨hdon.elected, hdon.coins⟩,
      ⟨hpv.pn, hpv.pvYes, hpv.pvNo, hpv.pvY, hpv.pvN, hpv.spawned, hpv.voted⟩, he, hhl⟩ id id Or.inl (fun _ _ _ => Or.inl) (fun _ _ _ => Or.inl) (fun _ _ => Or.inl)
  have hmemiff : ∀ y, yes = y → ∀ k, (∃ v' sig' sh', (i, k, MMsg.vote r y v' sig' sh') ∈ d') ↔ (∃ v' sig' sh', (i, k, MMsg.vote r y v' sig' sh') ∈ d) ∨ k = q := by
    rintro y rfl k
    constructor
    · rintro ⟨v', sig', sh', hd⟩
      rcases (hq.mem _ _).1 hd with hd | ⟨e, -⟩
      · exact Or.inl ⟨v', sig', sh', hd⟩
      · exact Or.inr e
    · rintro (⟨v', sig', sh', hd⟩ | rfl)
      · exact ⟨v', sig', sh', (hq.mem _ _).2 (Or.inl hd)⟩
      · exact ⟨_, _, _, (hq.mem _ _).2 (Or.inr ⟨rfl, rfl⟩)⟩
  have hmemne : ∀ y, yes ≠ y → ∀ k, (∃ v' sig' sh', (i, k, MMsg.vote r y v' sig' sh') ∈ d') ↔ (∃ v' sig' sh', (i, k, MMsg.vote r y v' sig' sh') ∈ d) := by
    intro y hne k
    refine exists_congr fun v' => exists_congr fun sig' => exists_congr fun sh' => ?_
    rw [hq.mem]
    refine ⟨fun x => x.resolve_right ?_, Or.inl⟩
    rintro ⟨-, e⟩
    cases e
    exact hne rfl
  unfold DyCAPS.onVote at ho
  simp only at ho
  split at ho
  · cases ho
  · rename_i l hl
    obtain rfl := c.lead r l hl
    split at ho
    · rename_i hr
      split at ho
      · rename_i e
        subst e
        obtain ⟨hv, rfl, rfl⟩ := hy rfl
        rw [c.ok.share_sign q hq.lt, c.ok.cert_full, if_pos (show (true && (some q).isSome) = true from rfl)] at ho
        cases ho
        have htal0 : Tally env (st.rounds r).VYr (.echo r (coinLeader env full r) 2 (env.hash v)) (fun k => ∃ v sig sh, (i, k, MMsg.vote r true v sig sh) ∈ d) := by
          obtain ⟨v0, a, b⟩ := hR.vot.vy
          by_cases hnil : (st.rounds r).VYr = []
          · rw [hnil] at a ⊢
            exact a.nil_any _
          · rw [c.uniq r _ v v0 (c.llt r) hv (b hnil)]
            exact a
        have htal : Tally env ((st.rounds r).VYr ++ [env.sign q (.echo r (coinLeader env full r) 2 (env.hash v))]) (.echo r (coinLeader env full r) 2 (env.hash v))
            (fun k => ∃ v sig sh, (i, k, MMsg.vote r true v sig sh) ∈ d') := by
          refine htal0.add hq.lt ?_ (hmemiff true rfl)
          rintro ⟨v', sig', sh', hd⟩
          obtain ⟨hv', rfl, rfl⟩ := (c.sent _ _ (c.log _ _ hd)).1 rfl
          rw [c.uniq r _ v' v (c.llt r) hv' hv] at hd
          exact hq.fresh hd
        refine ⟨hset _ (st.rounds r).VNr _ hr ⟨hR.vot.vn.congr fun k _ => hmemne false (by simp) k, ⟨v, htal, fun _ => hv.mono ht⟩, fun hl => ?_, fun hl => ?_, fun v' sig' hp => ?_, fun hp => ?_⟩, rfl⟩
        · simp only at hl ⊢
          rw [if_pos (by omega)]
          exact or_isSome _ _
        · have := hR.vot.voN hl
          simp only
          split
          · exact or_isSome _ _
          · split
            · exact or_isSome _ _
            · exact this
        · simp only at hp
          have hold : (st.rounds r).voteOut = some (.yes v' sig') → Val t' r (coinLeader env full r) v' ∧ sig' = full (.echo r (coinLeader env full r) 2 (env.hash v')) := fun x =>
            ⟨(hR.vot.voYes v' sig' x).1.mono ht, (hR.vot.voYes v' sig' x).2⟩
          split at hp
          · rename_i hlen
            rcases or_cases hp with hp | e
            · exact hold hp
            · rw [htal.recover c.ok hlen] at e
              cases e
              exact ⟨hv.mono ht, rfl⟩
          · split at hp
            · rcases or_cases hp with hp | e
              · exact hold hp
              · cases e
            · exact hold hp
        · simp only at hp ⊢
          split at hp
          · omega
          · split at hp
            · omega
            · have := hR.vot.voCount hp
              rw [List.length_append]
              omega
      · rename_i e
        have e : yes = false := by simpa using e
        subst e
        obtain ⟨rfl, rfl, rfl⟩ := hn rfl
        rw [c.ok.share_sign q hq.lt, c.ok.cert_full, if_pos (show (true && (some q).isSome) = true from rfl)] at ho
        cases ho
        have htal : Tally env ((st.rounds r).VNr ++ [env.sign q (.unlock r)]) (.unlock r) (fun k => ∃ v sig sh, (i, k, MMsg.vote r false v sig sh) ∈ d') := by
          refine hR.vot.vn.add hq.lt ?_ (hmemiff false rfl)
          rintro ⟨v', sig', sh', hd⟩
          obtain ⟨rfl, rfl, rfl⟩ := (c.sent _ _ (c.log _ _ hd)).2 rfl
          exact hq.fresh hd
        refine ⟨hset (st.rounds r).VYr _ _ hr ⟨htal, ?_, fun hl => ?_, fun hl => ?_, fun v' sig' hp => ?_, fun hp => ?_⟩, rfl⟩
        · obtain ⟨v0, a, b⟩ := hR.vot.vy
          exact ⟨v0, a.congr fun k _ => hmemne true (by simp) k, fun x => (b x).mono ht⟩
        · have := hR.vot.voY hl
          simp only
          split
          · exact or_isSome _ _
          · exact this
        · simp only at hl ⊢
          rw [if_pos (by omega)]
          exact or_isSome _ _
        · simp only at hp
          have hp' : (st.rounds r).voteOut = some (.yes v' sig') := by
            split at hp
            · exact (or_cases hp).resolve_right (by intro e; cases e)
            · exact hp
          exact ⟨(hR.vot.voYes v' sig' hp').1.mono ht, (hR.vot.voYes v' sig' hp').2⟩
        · simp only at hp ⊢
          split at hp
          · omega
          · have := hR.vot.voCount hp
            rw [List.length_append]
            omega
    · cases ho

theorem LParty.lift (h : LParty env full i t d st) (ht : ∀ x ∈ t, x ∈ t') : LParty env full i t' d st := h.others ht fun _ _ => Iff.rfl

theorem LParty.notDecided (h : LParty env full i t d st) (hp : ¬ st.hasDecided) {r : ℕ} (hr : (st.rounds r).haltDone = true) : st.halt.isSome := (h.halt r hr).resolve_right hp

theorem LParty.quitRecv (h : LParty env full i t d st) (hp : st.phase ≠ .wait) {f : ℕ → PbPos}
    (hf : ∀ j, ((st.rounds st.round).recv j ≠ .first → f j ≠ .first) ∧ ((st.rounds st.round).recv j = .ended → f j = .ended)) :
    LParty env full i t d (st.setRound st.round { st.rounds st.round with recv := f }) := by
  have hR := h.rounds st.round
  refine h.setRound (fun _ x => x) (DStep.refl _ _ _) le_rfl ⟨⟨fun j stage v val hm => ?_, hR.val.lock⟩, ⟨hR.ech.first, hR.ech.second⟩, ⟨hR.fin.fin, hR.fin.finLen, hR.fin.flag⟩, ⟨hR.don.elected, hR.don.coins⟩,
    ⟨hR.pv.pn, hR.pv.pvYes, hR.pv.pvNo, hR.pv.pvY, hR.pv.pvN, hR.pv.spawned, hR.pv.voted⟩, ⟨hR.vot.vn, hR.vot.vy, hR.vot.voY, hR.vot.voN, hR.vot.voYes, hR.vot.voCount⟩, hR.halted⟩ id id Or.inl
    (fun x => absurd x hp) (fun x => absurd x hp) (fun x => absurd x hp)
  obtain ⟨a, b⟩ := hR.val.recv j stage v val hm
  exact ⟨(hf j).1 a, fun e => (hf j).2 (b e)⟩

theorem LParty.onJoined (h : LParty env full i t d st) (c : LCtx env full i t d st) (ht : ∀ x ∈ t, x ∈ t') {o : MOut} (ho : onJoined env i st = some o) (hm : ∀ m ∈ o.msgs, (i, m) ∈ t') :
    LParty env full i t' d o.st ∧ ∀ m ∈ o.msgs, LSent env full i t' m := by
  have hR := h.rounds st.round
  unfold DyCAPS.onJoined at ho
  simp only at ho
  split at ho
  · rename_i l hp
    obtain rfl := c.lead _ _ (c.join l (Or.inl hp))
    have hnd : ¬ st.hasDecided := by rintro ⟨r, v, e⟩; rw [hp] at e; cases e
    split at ho
    · rename_i hr
      split at ho
      · rename_i v sig hf
        cases ho
        simp only [List.mem_singleton, forall_eq] at hm ⊢
        obtain ⟨a, b⟩ := hR.fin.fin _ v sig hf
        refine ⟨(h.lift ht).move rfl rfl rfl (by simp) (by simp) (fun r hx => Or.inr ⟨_, _, rfl⟩) (h.lift ht).haltSent ?_, a.mono ht, b⟩
        intro r v' e
        cases e
        exact ⟨i, c.lt, sig, hm⟩
      · have key : ∀ yes v sig, (i, MMsg.prevote st.round yes v sig) ∈ t' →
            LParty env full i t' d { st.setRound st.round { st.rounds st.round with voteSpawned := true } with phase := .result (coinLeader env full st.round) } := by
          intro yes v sig hs
          have hR := (h.lift ht).rounds st.round
          have h2 := (h.lift ht).setRound (fun _ x => x) (DStep.refl i st.round d) le_rfl (R := { st.rounds st.round with voteSpawned := true }) ⟨⟨hR.val.recv, hR.val.lock⟩, ⟨hR.ech.first, hR.ech.second⟩,
            ⟨hR.fin.fin, hR.fin.finLen, hR.fin.flag⟩, ⟨hR.don.elected, hR.don.coins⟩, ⟨hR.pv.pn, hR.pv.pvYes, hR.pv.pvNo, hR.pv.pvY, hR.pv.pvN, fun _ => ⟨yes, v, sig, hs⟩, hR.pv.voted⟩,
            ⟨hR.vot.vn, hR.vot.vy, hR.vot.voY, hR.vot.voN, hR.vot.voYes, hR.vot.voCount⟩, hR.halted⟩ id (fun _ => rfl) Or.inl
            (fun x => absurd x (by rw [hp]; simp)) (fun x => absurd x (by rw [hp]; simp)) (fun x => absurd x (by rw [hp]; simp))
          exact h2.move rfl rfl rfl (by simp) (fun l _ => by rw [setRound_rounds, setRound_round, if_pos rfl]) (fun r hx => Or.inl (h2.notDecided hnd hx)) h2.haltSent (by simp)
        split at ho
        · rename_i v sig hlk
          cases ho
          simp only [List.mem_singleton, forall_eq] at hm ⊢
          obtain ⟨a, b⟩ := hR.val.lock _ v sig hlk
          exact ⟨key _ _ _ hm, fun _ => ⟨a.mono ht, b⟩, fun x => by cases x⟩
        · cases ho
          simp only [List.mem_singleton, forall_eq] at hm ⊢
          exact ⟨key _ _ _ hm, fun x => (by cases x), fun _ => ⟨rfl, rfl⟩⟩
    · cases ho
  · cases ho

theorem LParty.onSendVote (h : LParty env full i t d st) (c : LCtx env full i t d st) (ht : ∀ x ∈ t, x ∈ t') {r : ℕ} {o : MOut} (ho : onSendVote env i st r = some o) (hm : ∀ m ∈ o.msgs, (i, m) ∈ t') :
    LParty env full i t' d o.st ∧ ∀ m ∈ o.msgs, LSent env full i t' m := by
  have key : r ≤ st.round → ∀ yes v sig sh, (i, MMsg.vote r yes v sig sh) ∈ t' → LParty env full i t' d (st.setRound r { st.rounds r with voted := true }) := by
    intro hr yes v sig sh hs
    have hR := (h.lift ht).rounds r
    exact (h.lift ht).setRound (fun _ x => x) (DStep.refl i r d) hr (R := { st.rounds r with voted := true }) ⟨⟨hR.val.recv, hR.val.lock⟩, ⟨hR.ech.first, hR.ech.second⟩,
      ⟨hR.fin.fin, hR.fin.finLen, hR.fin.flag⟩, ⟨hR.don.elected, hR.don.coins⟩, ⟨hR.pv.pn, hR.pv.pvYes, hR.pv.pvNo, hR.pv.pvY, hR.pv.pvN, hR.pv.spawned, fun _ => ⟨yes, v, sig, sh, hs⟩⟩,
      ⟨hR.vot.vn, hR.vot.vy, hR.vot.voY, hR.vot.voN, hR.vot.voYes, hR.vot.voCount⟩, hR.halted⟩ id id Or.inl (fun _ _ _ => Or.inl) (fun _ _ _ => Or.inl) (fun _ _ => Or.inl)
  have hR := h.rounds r
  unfold DyCAPS.onSendVote at ho
  simp only at ho
  split at ho
  · rename_i hr
    split at ho
    · rename_i l v sig hl hp
      obtain rfl := c.lead r l hl
      cases ho
      simp only [List.mem_singleton, forall_eq] at hm ⊢
      obtain ⟨a, b⟩ := hR.pv.pvY v sig hp
      exact ⟨key hr.1 _ _ _ _ hm, fun _ => ⟨a.mono ht, b, rfl⟩, fun x => by cases x⟩
    · rename_i l sig hl hp
      cases ho
      simp only [List.mem_singleton, forall_eq] at hm ⊢
      exact ⟨key hr.1 _ _ _ _ hm, fun x => (by cases x), fun _ => ⟨rfl, hR.pv.pvN sig hp, rfl⟩⟩
    · cases ho
  · cases ho

theorem LParty.startRound (h : LParty env full i t d st) (c : LCtx env full i t d st) (ht : ∀ x ∈ t, x ∈ t') {l : ℕ} (hp : st.phase = .result l) (v val : Bytes)
    (hm : (i, MMsg.value (st.round + 1) i 1 v val) ∈ t') : LParty env full i t' d (startRound i (st.round + 1) v val st).1 := by
  have hnd : ¬ st.hasDecided := by rintro ⟨r, v, e⟩; rw [hp] at e; cases e
  have hL := h.lift ht
  have hrd : ∀ r, (DyCAPS.startRound i (st.round + 1) v val st).1.rounds r = if r = st.round + 1 then MRound.init v val else st.rounds r := fun _ => rfl
  have hrd0 : (DyCAPS.startRound i (st.round + 1) v val st).1.round = st.round + 1 := rfl
  refine ⟨fun r => ?_, fun k m hd => ?_, h.alive, fun r hr => ?_, fun _ j hj => ?_, fun _ j hj => ?_, fun _ hj => ?_, fun r hr => ?_, fun l' hp' => (by cases hp'), fun r hx => ?_, hL.haltSent,
    fun r v' hp' => (by cases hp')⟩
  · rw [hrd]
    split
    · rename_i e
      subst e
      exact LRound.init env full i t' (fun k m hd => by have := h.dpast k m hd; omega) v val
    · exact hL.rounds r
  · have := h.dpast k m hd
    rw [hrd0]; omega
  · rw [hrd0] at hr
    by_cases e : r = st.round + 1
    · subst e; exact ⟨v, val, hm⟩
    · exact hL.started r (by omega)
  · rw [hrd0, hrd, if_pos rfl] at hj; exact absurd rfl hj
  · rw [hrd0, hrd, if_pos rfl] at hj; cases hj
  · rw [hrd0, hrd, if_pos rfl] at hj; cases hj
  · rw [hrd0] at hr
    rw [hrd, if_neg (by omega)]
    by_cases e : r = st.round
    · subst e
      exact ⟨h.result l hp, by rw [c.join l (Or.inr hp)]; simp⟩
    · exact h.past r (by omega)
  · rw [hrd] at hx
    split at hx
    · cases hx
    · exact Or.inl (h.notDecided hnd hx)

theorem LParty.onTakeVote (h : LParty env full i t d st) (c : LCtx env full i t d st) (ht : ∀ x ∈ t, x ∈ t') {o : MOut} (ho : onTakeVote i st = some o) (hm : ∀ m ∈ o.msgs, (i, m) ∈ t') :
    LParty env full i t' d o.st ∧ ∀ m ∈ o.msgs, LSent env full i t' m := by
  unfold DyCAPS.onTakeVote at ho
  simp only at ho
  split at ho
  · rename_i l hp
    split at ho
    · cases ho
    · rename_i v sig hv
      cases ho
      simp only [List.mem_singleton, forall_eq] at hm ⊢
      obtain ⟨a, b⟩ := (h.rounds st.round).vot.voYes v sig hv
      refine ⟨(h.lift ht).move rfl rfl rfl (by simp) (by simp) (fun r hx => Or.inr ⟨_, _, rfl⟩) (h.lift ht).haltSent ?_, a.mono ht, b⟩
      intro r v' e
      cases e
      exact ⟨i, c.lt, sig, hm⟩
    · cases ho
      exact ⟨h.startRound c ht hp _ _ (hm _ (by simp [DyCAPS.startRound])), by intro m hx; simp only [DyCAPS.startRound, List.mem_singleton] at hx; subst hx; exact ⟨rfl, Or.inl rfl⟩⟩
    · cases ho
      exact ⟨h.startRound c ht hp _ _ (hm _ (by simp [DyCAPS.startRound])), by intro m hx; simp only [DyCAPS.startRound, List.mem_singleton] at hx; subst hx; exact ⟨rfl, Or.inl rfl⟩⟩
  · cases ho

/-- Every step keeps the invariant. -/
theorem LParty.step (h : LParty env full i t d st) (c : LCtx env full i t d st) {ev : MEvent} (hq : ∀ q m, ev = .recv q m → q < env.N ∧ (q, m) ∈ t ∧ (i, q, m) ∉ d)
    {o : MOut} (ho : mvbaStep env i st ev = some o) :
    LParty env full i (t ++ o.msgs.map fun m => (i, m)) (d ++ logDelivery i ev) o.st ∧ ∀ m ∈ o.msgs, LSent env full i (t ++ o.msgs.map fun m => (i, m)) m := by
  have ht : ∀ x ∈ t, x ∈ t ++ o.msgs.map fun m => (i, m) := fun x hx => List.mem_append_left _ hx
  have hm : ∀ m ∈ o.msgs, (i, m) ∈ t ++ o.msgs.map fun m => (i, m) := fun m hx => List.mem_append_right _ (List.mem_map.2 ⟨m, hx, rfl⟩)
  have hdl : ∀ q m, ev = .recv q m → Dlv env i t d q m (d ++ logDelivery i ev) := by
    rintro q m rfl
    obtain ⟨a, b, e⟩ := hq q m rfl
    exact ⟨a, b, e, rfl⟩
  have hno : ∀ {st' : MState}, o.msgs = [] → LParty env full i (t ++ o.msgs.map fun m => (i, m)) (d ++ logDelivery i ev) st' →
      LParty env full i (t ++ o.msgs.map fun m => (i, m)) (d ++ logDelivery i ev) st' ∧ ∀ m ∈ o.msgs, LSent env full i (t ++ o.msgs.map fun m => (i, m)) m := by
    intro st' e hx
    exact ⟨hx, by rw [e]; simp⟩
  unfold mvbaStep at ho
  split at ho
  · cases ho
  · split at ho
    · obtain ⟨o', ho', rfl⟩ := Option.map_eq_some_iff.1 ho
      exact h.onValue c (hdl _ _ rfl) ht ho' hm
    · exact h.onEchoShare c (hdl _ _ rfl) ht ho hm
    · have := h.onFinish c (hdl _ _ rfl) ht ho; exact hno this.2 this.1
    · have := h.onDone c (hdl _ _ rfl) ht ho; exact hno this.2 this.1
    · have := h.onHalt c (hdl _ _ rfl) ht ho; exact hno this.2 this.1
    · have := h.onPreVote c (hdl _ _ rfl) ht ho; exact hno this.2 this.1
    · have := h.onVote c (hdl _ _ rfl) ht ho; exact hno this.2 this.1
    · rename_i j
      simp only [logDelivery, List.append_nil] at hno ⊢
      simp only at ho
      split at ho
      · rename_i hcan
        have hp : st.phase ≠ .wait := by
          intro e
          simp [MState.cancelled, e] at hcan
        split at ho
        · rename_i hpos
          cases ho
          refine hno rfl ((h.quitRecv hp fun j' => ?_).lift ht)
          split
          · rename_i e; subst e; exact ⟨fun x => absurd hpos x, fun x => by rw [hpos] at x; cases x⟩
          · exact ⟨id, id⟩
        · rename_i hpos
          cases ho
          refine hno rfl ((h.quitRecv hp fun j' => ?_).lift ht)
          split
          · exact ⟨fun _ => by simp, fun _ => rfl⟩
          · exact ⟨id, id⟩
        · cases ho
      · cases ho
    · simp only [logDelivery, List.append_nil] at hno ⊢
      simp only at ho
      split at ho
      · rename_i hcan
        have hp : st.phase ≠ .wait := by
          intro e
          simp [MState.cancelled, e] at hcan
        cases ho
        have hR := h.rounds st.round
        refine hno rfl (LParty.lift ?_ ht)
        exact h.setRound (fun _ x => x) (DStep.refl _ _ _) le_rfl ⟨⟨hR.val.recv, hR.val.lock⟩, ⟨fun _ e => (by cases e), fun _ e => (by cases e)⟩, ⟨hR.fin.fin, hR.fin.finLen, hR.fin.flag⟩,
          ⟨hR.don.elected, hR.don.coins⟩, ⟨hR.pv.pn, hR.pv.pvYes, hR.pv.pvNo, hR.pv.pvY, hR.pv.pvN, hR.pv.spawned, hR.pv.voted⟩,
          ⟨hR.vot.vn, hR.vot.vy, hR.vot.voY, hR.vot.voN, hR.vot.voYes, hR.vot.voCount⟩, hR.halted⟩ id id Or.inl
          (fun x => absurd x hp) (fun x => absurd x hp) (fun x => absurd x hp)
      · cases ho
    · rename_i r
      simp only [logDelivery, List.append_nil] at hno ⊢
      simp only at ho
      split at ho
      · rename_i hr
        cases ho
        have hR := (h.lift ht).rounds r
        refine ⟨(h.lift ht).setRound (fun _ x => x) (DStep.refl _ _ _) hr.1 ⟨⟨hR.val.recv, hR.val.lock⟩, ⟨hR.ech.first, hR.ech.second⟩, ⟨hR.fin.fin, hR.fin.finLen, hR.fin.flag⟩,
          ⟨fun _ => ⟨_, hm _ (List.mem_singleton.2 rfl)⟩, hR.don.coins⟩, ⟨hR.pv.pn, hR.pv.pvYes, hR.pv.pvNo, hR.pv.pvY, hR.pv.pvN, hR.pv.spawned, hR.pv.voted⟩,
          ⟨hR.vot.vn, hR.vot.vy, hR.vot.voY, hR.vot.voN, hR.vot.voYes, hR.vot.voCount⟩, hR.halted⟩ id id Or.inl
          (fun _ _ _ => Or.inl) (fun _ _ _ => Or.inl) (fun _ _ => Or.inl), ?_⟩
        intro m hx
        rw [List.mem_singleton] at hx
        subst hx
        rfl
      · cases ho
    · simp only [logDelivery, List.append_nil] at hno ⊢
      split at ho
      · rename_i l hp hl
        cases ho
        have hnd : ¬ st.hasDecided := by rintro ⟨r, v, e⟩; rw [hp] at e; cases e
        exact hno rfl ((h.lift ht).move rfl rfl rfl (by simp) (by simp) (fun r hx => Or.inl (h.notDecided hnd hx)) (h.lift ht).haltSent (by simp))
      · cases ho
    · simp only [logDelivery, List.append_nil]
      exact h.onJoined c ht ho hm
    · simp only [logDelivery, List.append_nil]
      exact h.onSendVote c ht ho hm
    · simp only [logDelivery, List.append_nil] at hno ⊢
      split at ho
      · rename_i r v hp hh
        cases ho
        refine hno rfl ((h.lift ht).move rfl rfl rfl (by simp) (by simp) (fun r hx => Or.inr ⟨_, _, rfl⟩) (by simp) ?_)
        intro r' v' e
        cases e
        exact (h.lift ht).haltSent r v hh
      · rename_i l r v hp hh
        cases ho
        refine hno rfl ((h.lift ht).move rfl rfl rfl (by simp) (by simp) (fun r hx => Or.inr ⟨_, _, rfl⟩) (by simp) ?_)
        intro r' v' e
        cases e
        exact (h.lift ht).haltSent r v hh
      · cases ho
    · simp only [logDelivery, List.append_nil]
      exact h.onTakeVote c ht ho hm

end party

end DyCAPS

import Verif.Lemmas.MVBAToy

/-!
# Putting executions of the agreement together

Steps of one party, and then the same script at all parties. A signature scheme for any committee size, in which a signature names what it signs.
-/

namespace DyCAPS

theorem MRun.append {env : MEnv} {H : Finset ℕ} {cfg : MNetCfg} {net₀ net net' : MNet} {e1 e2 : List (ℕ × MEvent)} (h1 : MRun env H cfg net₀ e1 net) (h2 : MRun env H cfg net e2 net') :
    MRun env H cfg net₀ (e1 ++ e2) net' := by
  induction h2 with
  | nil => simpa using h1
  | snoc h hi ha hs ih =>
    rw [← List.append_assoc]
    exact ih.snoc hi ha hs

theorem Genuine.grow {env : MEnv} {H : Finset ℕ} {s s' : List (ℕ × SMsg)} {b : Bytes} (h : Genuine env H s b) (hs : ∀ x ∈ s, x ∈ s') : Genuine env H s' b := by
  intro m
  refine ⟨fun i hi => ⟨((h m).1 i hi).1, fun hH => hs _ (((h m).1 i hi).2 hH)⟩, fun hc => ?_⟩
  refine le_trans ((h m).2 hc) (Finset.card_le_card fun i hi => ?_)
  simp only [signers, Finset.mem_filter] at hi ⊢
  exact ⟨hi.1, hi.2.imp id (hs _)⟩

/-- Steps of one party with what it sends and signs. -/
inductive LRun (env : MEnv) (i : ℕ) : MState → List MEvent → List MMsg → List SMsg → MState → Prop
  | nil (st) : LRun env i st [] [] [] st
  | cons {st ev o evs ms sg st'} (h : mvbaStep env i st ev = some o) (t : LRun env i o.st evs ms sg st') : LRun env i st (ev :: evs) (o.msgs ++ ms) (o.signed ++ sg) st'

theorem LRun.trans {env : MEnv} {i : ℕ} {st st' st'' : MState} {e1 e2 : List MEvent} {m1 m2 : List MMsg} {s1 s2 : List SMsg} (h1 : LRun env i st e1 m1 s1 st') (h2 : LRun env i st' e2 m2 s2 st'') :
    LRun env i st (e1 ++ e2) (m1 ++ m2) (s1 ++ s2) st'' := by
  induction h1 with
  | nil => simpa using h2
  | cons h t ih => simpa [List.append_assoc] using LRun.cons h (ih h2)

theorem LRun.one {env : MEnv} {i : ℕ} {st : MState} {ev : MEvent} {o : MOut} (h : mvbaStep env i st ev = some o) : LRun env i st [ev] o.msgs o.signed o.st := by
  simpa using LRun.cons h (LRun.nil o.st)

/-- No message of an honest party occurs twice. -/
def NoRepeat (H : Finset ℕ) (evs : List MEvent) : Prop := evs.Pairwise fun a b => ∀ s m, s ∈ H → a = MEvent.recv s m → b ≠ a

theorem LRun.net {env : MEnv} {H : Finset ℕ} {i : ℕ} (hi : i ∈ H) {st st' : MState} {evs : List MEvent} {ms : List MMsg} {sg : List SMsg} (h : LRun env i st evs ms sg st') :
    ∀ net : MNet, net.party i = st → (∀ s m, MEvent.recv s m ∈ evs → (∀ b ∈ m.sigs, Genuine env H net.signed b) ∧ (s ∈ H → (s, m) ∈ net.sent ∧ (i, s, m) ∉ net.delivered)) → NoRepeat H evs →
    ∃ net', MRun env H ⟨true, true⟩ net (evs.map fun e => (i, e)) net' ∧ (net'.party = fun k => if k = i then st' else net.party k) ∧ net'.signed = net.signed ++ sg.map (fun m => (i, m)) ∧
      net'.sent = net.sent ++ ms.map (fun m => (i, m)) ∧ net'.delivered = net.delivered ++ evs.flatMap (logDelivery i) := by
  induction h with
  | nil st =>
    intro net hst _ _
    refine ⟨net, .nil, ?_, by simp, by simp, by simp⟩
    funext k
    split
    · rename_i e; rw [e, hst]
    · rfl
  | @cons st ev o evs ms sg st' h t ih =>
    intro net hst hok hnr
    obtain ⟨hn1, hn2⟩ := List.pairwise_cons.1 hnr
    have hat : net.at_ env i ev = some { net with
        party := fun j => if j = i then o.st else net.party j
        signed := net.signed ++ o.signed.map fun m => (i, m)
        sent := net.sent ++ o.msgs.map fun m => (i, m) } := by
      unfold MNet.at_
      rw [hst, h]
      rfl
    have hall : MAllowed env H ⟨true, true⟩ net i ev := by
      cases ev with
      | recv s m =>
        obtain ⟨a, b⟩ := hok s m (by simp)
        exact ⟨a, fun _ hs => (b hs).1, fun _ hs => (b hs).2⟩
      | _ => trivial
    have r1 := (MRun.nil (env := env) (H := H) (cfg := ⟨true, true⟩) (net₀ := net)).snoc hi hall hat
    obtain ⟨net', r2, a1, a2, a3, a4⟩ := ih { net with
        party := fun j => if j = i then o.st else net.party j
        signed := net.signed ++ o.signed.map fun m => (i, m)
        sent := net.sent ++ o.msgs.map fun m => (i, m)
        delivered := net.delivered ++ logDelivery i ev } (if_pos rfl) (fun s m hm => by
      obtain ⟨a, b⟩ := hok s m (List.mem_cons_of_mem _ hm)
      refine ⟨fun x hx => (a x hx).grow fun y hy => List.mem_append_left _ hy, fun hs => ⟨List.mem_append_left _ (b hs).1, fun hd => ?_⟩⟩
      rcases List.mem_append.1 hd with hd | hd
      · exact (b hs).2 hd
      · cases ev with
        | recv s' m' =>
          simp only [logDelivery, List.mem_singleton, Prod.mk.injEq] at hd
          obtain ⟨-, rfl, rfl⟩ := hd
          exact hn1 _ hm s m hs rfl rfl
        | _ => simp [logDelivery] at hd) hn2
    refine ⟨net', r1.append r2, ?_, by rw [a2]; simp, by rw [a3]; simp, by rw [a4]; simp⟩
    rw [a1]
    funext k
    show (if k = i then st' else if k = i then o.st else net.party k) = _
    split <;> rfl

/-- The same phase at all parties of `L`. -/
theorem phase_run_all {env : MEnv} {H : Finset ℕ} {st st' : ℕ → MState} {evs : ℕ → List MEvent} {ms : ℕ → List MMsg} {sg : ℕ → List SMsg} (L : List ℕ) :
    ∀ net : MNet, L.Nodup → (∀ i ∈ L, i ∈ H ∧ net.party i = st i ∧ LRun env i (st i) (evs i) (ms i) (sg i) (st' i) ∧ NoRepeat H (evs i) ∧
      ∀ s m, MEvent.recv s m ∈ evs i → (∀ b ∈ m.sigs, Genuine env H net.signed b) ∧ (s ∈ H → (s, m) ∈ net.sent ∧ (i, s, m) ∉ net.delivered)) →
    ∃ es net', MRun env H ⟨true, true⟩ net es net' ∧ (∀ k, net'.party k = if k ∈ L then st' k else net.party k) ∧
      (∀ x ∈ net.signed, x ∈ net'.signed) ∧ (∀ i ∈ L, ∀ m ∈ sg i, (i, m) ∈ net'.signed) ∧ (∀ x ∈ net.sent, x ∈ net'.sent) ∧ (∀ i ∈ L, ∀ m ∈ ms i, (i, m) ∈ net'.sent) ∧
      (∀ x ∈ net'.delivered, x ∈ net.delivered ∨ ∃ i ∈ L, x ∈ (evs i).flatMap (logDelivery i)) ∧ ∀ x ∈ net'.signed, x ∈ net.signed ∨ ∃ i ∈ L, ∃ m ∈ sg i, x = (i, m) := by
  induction L with
  | nil =>
    intro net _ _
    exact ⟨[], net, .nil, by simp, fun _ h => h, by simp, fun _ h => h, by simp, fun _ h => Or.inl h, fun _ h => Or.inl h⟩
  | cons a L ih =>
    intro net hnd hall
    obtain ⟨hn1, hn2⟩ := List.nodup_cons.1 hnd
    obtain ⟨ha, hst, hrun, hnr, hok⟩ := hall a (by simp)
    obtain ⟨net1, r1, b1, b2, b3, b4⟩ := hrun.net ha net hst hok hnr
    have hsub : ∀ x ∈ net.signed, x ∈ net1.signed := by rw [b2]; exact fun x hx => List.mem_append_left _ hx
    have hsub' : ∀ x ∈ net.sent, x ∈ net1.sent := by rw [b3]; exact fun x hx => List.mem_append_left _ hx
    obtain ⟨es, net2, r2, c1, c2, c3, c4, c5, c6, c7⟩ := ih net1 hn2 (fun i hi => by
      obtain ⟨k1, k2, k3, k4, k5⟩ := hall i (by simp [hi])
      have hne : i ≠ a := fun e => hn1 (e ▸ hi)
      refine ⟨k1, by rw [b1]; simp only [if_neg hne]; exact k2, k3, k4, fun s m hm => ?_⟩
      obtain ⟨g1, g2⟩ := k5 s m hm
      refine ⟨fun x hx => (g1 x hx).grow hsub, fun hs => ⟨hsub' _ (g2 hs).1, fun hd => ?_⟩⟩
      rw [b4] at hd
      rcases List.mem_append.1 hd with hd | hd
      · exact (g2 hs).2 hd
      · obtain ⟨e, -, he⟩ := List.mem_flatMap.1 hd
        cases e with
        | recv s' m' =>
          simp only [logDelivery, List.mem_singleton, Prod.mk.injEq] at he
          exact hne he.1
        | _ => simp [logDelivery] at he)
    refine ⟨_, net2, r1.append r2, fun k => ?_, fun x hx => c2 x (hsub x hx), fun i hi m hm => ?_, fun x hx => c4 x (hsub' x hx), fun i hi m hm => ?_, fun x hx => ?_, fun x hx => ?_⟩
    · rw [c1, b1]
      by_cases hk : k = a
      · subst hk
        rw [if_neg hn1, if_pos (by simp)]
        simp
      · by_cases hkL : k ∈ L
        · rw [if_pos hkL, if_pos (by simp [hkL])]
        · rw [if_neg hkL, if_neg (by simp [hkL, hk])]
          simp [hk]
    · rcases List.mem_cons.1 hi with rfl | hi
      · exact c2 _ (by rw [b2]; exact List.mem_append_right _ (List.mem_map_of_mem hm))
      · exact c3 i hi m hm
    · rcases List.mem_cons.1 hi with rfl | hi
      · exact c4 _ (by rw [b3]; exact List.mem_append_right _ (List.mem_map_of_mem hm))
      · exact c5 i hi m hm
    · rcases c6 x hx with h | ⟨i, hi, h⟩
      · rw [b4] at h
        rcases List.mem_append.1 h with h | h
        · exact Or.inl h
        · exact Or.inr ⟨a, by simp, h⟩
      · exact Or.inr ⟨i, by simp [hi], h⟩
    · rcases c7 x hx with h | ⟨i, hi, m, hm, h⟩
      · rw [b2] at h
        rcases List.mem_append.1 h with h | h
        · exact Or.inl h
        · obtain ⟨m, hm, rfl⟩ := List.mem_map.1 h
          exact Or.inr ⟨a, by simp, m, hm, rfl⟩
      · exact Or.inr ⟨i, by simp [hi], m, hm, h⟩

theorem phase_run {env : MEnv} {H : Finset ℕ} {st st' : ℕ → MState} {evs : ℕ → List MEvent} {ms : ℕ → List MMsg} {sg : ℕ → List SMsg} (L : List ℕ) :
    ∀ net : MNet, L.Nodup → (∀ i ∈ L, i ∈ H ∧ net.party i = st i ∧ LRun env i (st i) (evs i) (ms i) (sg i) (st' i) ∧ NoRepeat H (evs i) ∧
      ∀ s m, MEvent.recv s m ∈ evs i → (∀ b ∈ m.sigs, Genuine env H net.signed b) ∧ (s ∈ H → (s, m) ∈ net.sent ∧ (i, s, m) ∉ net.delivered)) →
    ∃ es net', MRun env H ⟨true, true⟩ net es net' ∧ (∀ k, net'.party k = if k ∈ L then st' k else net.party k) ∧
      (∀ x ∈ net.signed, x ∈ net'.signed) ∧ (∀ i ∈ L, ∀ m ∈ sg i, (i, m) ∈ net'.signed) ∧ (∀ x ∈ net.sent, x ∈ net'.sent) ∧ (∀ i ∈ L, ∀ m ∈ ms i, (i, m) ∈ net'.sent) ∧
      ∀ x ∈ net'.delivered, x ∈ net.delivered ∨ ∃ i ∈ L, x ∈ (evs i).flatMap (logDelivery i) := by
  intro net h1 h2
  obtain ⟨es, net', a1, a2, a3, a4, a5, a6, a7, -⟩ := phase_run_all L net h1 h2
  exact ⟨es, net', a1, a2, a3, a4, a5, a6, a7⟩

/-- A scheme in which a signature is accepted for what it was made for and for nothing else. -/
structure IdealScheme (env : MEnv) (full : SMsg → Bytes) : Prop extends SchemeOk env full where
  share_only : ∀ m m' i k, env.share m (env.sign i m') = some k → k = i ∧ m' = m ∧ i < env.N
  cert_sign : ∀ m m' i, env.cert m (env.sign i m') = false
  share_full : ∀ m m', env.share m (full m') = none
  cert_only : ∀ m m', env.cert m (full m') = true → m' = m
  empty : ∀ m, env.share m [] = none ∧ env.cert m [] = false

theorem IdealScheme.genuine_empty {env : MEnv} {full : SMsg → Bytes} (h : IdealScheme env full) (H : Finset ℕ) (s : List (ℕ × SMsg)) : Genuine env H s [] := by
  intro m
  rw [(h.empty m).1, (h.empty m).2]
  exact ⟨by simp, by simp⟩

theorem IdealScheme.genuine_sign {env : MEnv} {full : SMsg → Bytes} (h : IdealScheme env full) {H : Finset ℕ} {s : List (ℕ × SMsg)} {i : ℕ} {m : SMsg} (hs : (i, m) ∈ s) :
    Genuine env H s (env.sign i m) := by
  intro m'
  rw [h.cert_sign]
  refine ⟨fun k hk => ?_, by simp⟩
  obtain ⟨rfl, rfl, hN⟩ := h.share_only _ _ _ _ hk
  exact ⟨hN, fun _ => hs⟩

theorem IdealScheme.genuine_full {env : MEnv} {full : SMsg → Bytes} (h : IdealScheme env full) {H : Finset ℕ} {s : List (ℕ × SMsg)} {m : SMsg} (hq : Quorum env H s m) : Genuine env H s (full m) := by
  intro m'
  rw [h.share_full]
  exact ⟨by simp, fun hc => by rw [← h.cert_only _ _ hc]; exact hq⟩

namespace Toy

/-- `share` for `N` parties. -/
def shareN (N : ℕ) (m : SMsg) (b : Bytes) : Option ℕ :=
  match dec b with
  | some (.share i m') => if m' = m ∧ i < N then some i else none
  | _ => none

/-- `recover` with threshold `2F+1`. -/
def recoverN (N F : ℕ) (full : SMsg → Bytes) (m : SMsg) (sigs : List Bytes) : Option Bytes :=
  let ix := (sigs.take (2 * F + 1)).map (shareN N m)
  if 2 * F + 1 ≤ sigs.length ∧ none ∉ ix ∧ ix.Nodup then some (full m) else none

/-- The combined signature; the coin of round 0 is `c`. -/
def fullN (c : UInt8 × UInt8 × UInt8) (m : SMsg) : Bytes :=
  match m with
  | .done _ => 0 :: c.1 :: c.2.1 :: c.2.2 :: encM m
  | _ => 0 :: 0 :: 0 :: 0 :: encM m

theorem dec_fullN (c : UInt8 × UInt8 × UInt8) (m : SMsg) : dec (fullN c m) = some (.cert m) := by
  cases m <;> simp [fullN, dec, decM_encM]

/-- `N` parties; the coin has the bytes `c`. -/
def envN (N F : ℕ) (c : UInt8 × UInt8 × UInt8) : MEnv := ⟨N, F, id, sign, shareN N, cert, recoverN N F (fullN c)⟩

theorem idealN (N F : ℕ) (c : UInt8 × UInt8 × UInt8) : IdealScheme (envN N F c) (fullN c) where
  share_sign i hi m := by
    show shareN N m (sign i m) = some i
    have hi' : i < N := hi
    simp [shareN, dec_sign, hi']
  cert_full m := by
    show cert m (fullN c m) = true
    simp [cert, dec_fullN]
  recover_full m sigs L h1 h2 h3 := by
    show recoverN N F (fullN c) m sigs = _
    have h1 : sigs.map (shareN N m) = L.map some := h1
    have h3 : 2 * F + 1 ≤ L.length := h3
    have hl : sigs.length = L.length := by simpa using congrArg List.length h1
    have e : (sigs.take (2 * F + 1)).map (shareN N m) = (L.take (2 * F + 1)).map some := by rw [List.map_take, h1, List.map_take]
    unfold recoverN
    simp only
    rw [e, if_pos]
    refine ⟨by omega, (fun hc => by obtain ⟨x, -, hx⟩ := List.mem_map.1 hc; cases hx), ?_⟩
    exact (h2.sublist (List.take_sublist (2 * F + 1) L)).map (Option.some_injective _)
  share_only m m' i k h := by
    have h : shareN N m (sign i m') = some k := h
    unfold shareN at h
    rw [dec_sign] at h
    simp only at h
    split at h
    · rename_i hm
      cases h
      exact ⟨rfl, hm.1, hm.2⟩
    · cases h
  cert_sign m m' i := by
    show cert m (sign i m') = false
    simp [cert, dec_sign]
  share_full m m' := by
    show shareN N m (fullN c m') = none
    simp [shareN, dec_fullN]
  cert_only m m' h := by
    have h : cert m (fullN c m') = true := h
    simpa [cert, dec_fullN] using h
  empty m := ⟨rfl, rfl⟩

end Toy
end DyCAPS

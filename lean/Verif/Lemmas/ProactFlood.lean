import Verif.Lemmas.RefreshFinish
import Verif.Lemmas.RefreshScript

/-! Senders of the messages that the receivers of a refresh have taken. -/

set_option linter.unusedSectionVars false

namespace DyCAPS

section
variable {G1 G2 GT : Type} [AddCommGroup G1] [Module Fr G1] [AddCommGroup G2] [Module Fr G2] [AddCommGroup GT] [Module Fr GT]
variable [DecidableEq G1] [DecidableEq GT]
variable {codec : PointCodec G1} {pp : Pairing Fr G1 G2 GT} {tb : Tbls} {p0 : Party G1 G2} {c : DealerCoins}

/-- A vote for resharer `j` is about `j`. -/
theorem vote_index (p : Party G1 G2) (CQ : ℕ → G1) (j : ℕ) (m : PReshare) {out : List POut} (h : vote codec pp tb p CQ j m = .ok out) :
    ∀ o ∈ out, ∃ l r, o = .recover l r ∧ r.index = UInt32.ofNat j := by
  unfold vote at h
  cases he : (oneTo (2 * p.F + 1)).mapM (voteEntry codec pp p CQ m) with
  | error e => rw [he] at h; cases h
  | ok es =>
    rw [he, Go.ok_bind] at h
    simp only at h
    split at h
    all_goals
      split at h
      · refine mapM_mem (P := fun o => ∃ l r, o = POut.recover l r ∧ r.index = UInt32.ofNat j) ?_ _ _ h
        intro l o ho
        split at ho
        · cases ho; exact ⟨_, _, rfl, rfl⟩
        · cases h1 : idx p.table l with
          | error e => rw [h1] at ho; cases ho
          | ok lam =>
            rw [h1, Go.ok_bind] at ho
            cases h2 : linCombFr (es.map (·.1)) lam with
            | error e => rw [h2] at ho; cases ho
            | ok v =>
              rw [h2, Go.ok_bind] at ho
              cases h3 : linCombG1 (es.map (·.2.1)) lam with
              | error e => rw [h3] at ho; cases ho
              | ok w => rw [h3, Go.ok_bind] at ho; cases ho; exact ⟨_, _, rfl, rfl⟩
      · cases h; intro o ho; simp at ho

/-- Every vote follows a Reshare message of the resharer. -/
theorem PRun.vote_src {evs : List PEvent} {outs : List POut} {p : Party G1 G2} {st : PState G1} (hrun : PRun codec pp tb p0 (PState.init p0 c) evs outs p st) :
    ∀ l m, POut.recover l m ∈ outs → ∃ s d, PEvent.reshare s d ∈ evs ∧ m.index = s + 1 := by
  induction hrun with
  | nil => intro l m h; simp at h
  | snoc hr hs ih =>
    rename_i evs1 outs1 p1 st1 ev p' st' out
    have old : ∀ l m, POut.recover l m ∈ outs1 → ∃ s d, PEvent.reshare s d ∈ evs1 ++ [ev] ∧ m.index = s + 1 := by
      intro l m h
      obtain ⟨s, d, h1, h2⟩ := ih l m h
      exact ⟨s, d, List.mem_append_left _ h1, h2⟩
    cases step_effect hs with
    | reshare h1 h2 hv =>
      rename_i j d n W T
      intro l m h
      rw [List.mem_append] at h
      rcases h with h | h
      · exact old l m h
      · obtain ⟨l', r, e, hi⟩ := vote_index _ _ _ _ hv _ h
        cases e
        have key : ∃ s d, PEvent.reshare s d ∈ evs1 ++ [ev] ∧ j = (s + 1).toNat := by
          rcases h1.ev with ⟨s, he, hj, -⟩ | ⟨-, hm, -⟩
          · exact ⟨s, d, List.mem_append_right _ (by rw [he]; exact List.mem_singleton.2 rfl), hj⟩
          · obtain ⟨s, a, m⟩ := hr.queueInv.votes _ hm
            exact ⟨s, _, List.mem_append_left _ m, a⟩
        obtain ⟨s, d, hm, hj⟩ := key
        refine ⟨s, d, hm, ?_⟩
        rw [hi, hj, UInt32.ofNat_toNat]
    | handleCall =>
      intro l m h
      exact old l m ((List.mem_append.1 h).resolve_right (by simp))
    | distFull =>
      intro l m h
      exact old l m ((List.mem_append.1 h).resolve_right (by simp))
    | _ => rw [List.append_nil]; exact old

/-- The shares collected in ShareDist. -/
structure SbInv (p0 : Party G1 G2) (evs : List PEvent) (outs : List POut) (p : Party G1 G2) (st : PState G1) : Prop where
  tok : ∀ j, st.token j = true → st.newComDone j = true ∧ j ∉ st.SB.map (·.1)
  new : ∀ j ∈ st.SB.map (·.1), st.newComDone j = true
  nodup : (st.SB.map (·.1)).Nodup
  src : ∀ j ∈ st.SB.map (·.1), ∃ s d, PEvent.shareDist s d ∈ evs ∧ j = (s + 1).toNat
  len : st.successSent = true → 2 * p0.F + 1 ≤ st.SB.length
  out : POut.success ∈ outs → st.successSent = true
  full : st.successSent = false → p.fullShare = p0.fullShare

theorem SbInv.mono {evs : List PEvent} {outs out : List POut} {p p' : Party G1 G2} {st st' : PState G1} (ih : SbInv p0 evs outs p st) (ev : PEvent) (h : POut.success ∉ out)
    (e1 : st'.token = st.token) (e2 : st'.newComDone = st.newComDone) (e3 : st'.SB = st.SB) (e4 : st'.successSent = st.successSent) (e5 : p'.fullShare = p.fullShare) :
    SbInv p0 (evs ++ [ev]) (outs ++ out) p' st' where
  tok := by rw [e1, e2, e3]; exact ih.tok
  new := by rw [e2, e3]; exact ih.new
  nodup := by rw [e3]; exact ih.nodup
  src := by
    rw [e3]
    intro j hj
    obtain ⟨s, d, h1, h2⟩ := ih.src j hj
    exact ⟨s, d, List.mem_append_left _ h1, h2⟩
  len := by rw [e3, e4]; exact ih.len
  out := by
    rw [e4]
    intro hm
    exact ih.out ((List.mem_append.1 hm).resolve_right h)
  full := by rw [e4, e5]; exact ih.full

theorem SbInv.new_ {evs : List PEvent} {outs out : List POut} {p p' : Party G1 G2} {st st' : PState G1} (ih : SbInv p0 evs outs p st) (ev : PEvent) (h : POut.success ∉ out) {k : ℕ}
    (hk : st.newComDone k = false) {tk : Bool} (e1 : st'.token = upd st.token k tk) (e2 : st'.newComDone = upd st.newComDone k true) (e3 : st'.SB = st.SB) (e4 : st'.successSent = st.successSent)
    (e5 : p'.fullShare = p.fullShare) : SbInv p0 (evs ++ [ev]) (outs ++ out) p' st' where
  tok := by
    rw [e1, e2, e3]
    intro j hj
    by_cases hjk : j = k
    · subst hjk
      exact ⟨upd_same _ _ _, fun hm => by rw [ih.new j hm] at hk; cases hk⟩
    · rw [upd_ne _ _ hjk] at hj ⊢; exact ih.tok j hj
  new := by
    rw [e2, e3]
    intro j hj
    by_cases hjk : j = k
    · subst hjk; exact upd_same _ _ _
    · rw [upd_ne _ _ hjk]; exact ih.new j hj
  nodup := by rw [e3]; exact ih.nodup
  src := by
    rw [e3]
    intro j hj
    obtain ⟨s, d, h1, h2⟩ := ih.src j hj
    exact ⟨s, d, List.mem_append_left _ h1, h2⟩
  len := by rw [e3, e4]; exact ih.len
  out := by
    rw [e4]
    intro hm
    exact ih.out ((List.mem_append.1 hm).resolve_right h)
  full := by rw [e4, e5]; exact ih.full

theorem SbInv.took {N n : ℕ} {W : List (ℕ × Bytes)} {evs : List PEvent} {outs out : List POut} {p p' : Party G1 G2} {st st' : PState G1} {ev : PEvent} {k : ℕ} {d : Bytes} {v : Fr}
    (ih : SbInv p0 evs outs p st) (hq : QueueInv p0.N evs st) (ht : DistTake N st ev k d n W) (hk : st.token k = true) (hst : st'.token = upd st.token k false)
    (e2 : st'.newComDone = st.newComDone) (e3 : st'.SB = st.SB ++ [(k, v)])
    (hs : st'.successSent = st.successSent ∧ p'.fullShare = p.fullShare ∧ POut.success ∉ out ∨ st'.successSent = true ∧ 2 * p0.F + 1 ≤ st.SB.length + 1) :
    SbInv p0 (evs ++ [ev]) (outs ++ out) p' st' where
  tok := by
    rw [hst, e2, e3]
    intro j hj
    by_cases hjk : j = k
    · subst hjk; rw [upd_same] at hj; cases hj
    · rw [upd_ne _ _ hjk] at hj
      refine ⟨(ih.tok j hj).1, ?_⟩
      rw [List.map_append, List.mem_append]
      rintro (hm | hm)
      · exact (ih.tok j hj).2 hm
      · exact hjk (by simpa using hm)
  new := by
    rw [e2, e3]
    intro j hj
    rw [List.map_append, List.mem_append] at hj
    rcases hj with hj | hj
    · exact ih.new j hj
    · have hj : j = k := by simpa using hj
      rw [hj]; exact (ih.tok k hk).1
  nodup := by
    rw [e3, List.map_append, List.nodup_append]
    refine ⟨ih.nodup, by simp, fun x hx y hy => ?_⟩
    have hy : y = k := by simpa using hy
    rw [hy]
    rintro rfl
    exact (ih.tok x hk).2 hx
  src := by
    rw [e3]
    intro j hj
    rw [List.map_append, List.mem_append] at hj
    rcases hj with hj | hj
    · obtain ⟨s, d, h1, h2⟩ := ih.src j hj
      exact ⟨s, d, List.mem_append_left _ h1, h2⟩
    · have hj : j = k := by simpa using hj
      rcases ht.ev with ⟨s, he, hjs, -⟩ | ⟨-, hm, -⟩
      · exact ⟨s, d, List.mem_append_right _ (by rw [he]; exact List.mem_singleton.2 rfl), hj.trans hjs⟩
      · obtain ⟨s, a, m⟩ := hq.dists _ hm
        exact ⟨s, _, List.mem_append_left _ m, hj.trans a⟩
  len := by
    rw [e3, List.length_append, List.length_singleton]
    intro h
    rcases hs with ⟨h1, -, -⟩ | ⟨-, h2⟩
    · have := ih.len (h1 ▸ h); omega
    · exact h2
  out := by
    intro hm
    rcases hs with ⟨h1, -, h3⟩ | ⟨h1, -⟩
    · rw [h1]; exact ih.out ((List.mem_append.1 hm).resolve_right h3)
    · exact h1
  full := by
    intro h
    rcases hs with ⟨h1, h2, -⟩ | ⟨h1, -⟩
    · rw [h2]; exact ih.full (h1 ▸ h)
    · rw [h1] at h; cases h

theorem PRun.sbInv {evs : List PEvent} {outs : List POut} {p : Party G1 G2} {st : PState G1} (hrun : PRun codec pp tb p0 (PState.init p0 c) evs outs p st) : SbInv p0 evs outs p st := by
  induction hrun with
  | nil =>
    exact ⟨fun j h => by simp [PState.init] at h, fun j h => by simp [PState.init] at h, by simp [PState.init], fun j h => by simp [PState.init] at h, fun h => by simp [PState.init] at h,
      fun h => by simp at h, fun _ => rfl⟩
  | snoc hr hs ih =>
    rename_i evs1 outs1 p1 st1 ev p' st' out
    have hF : p1.F = p0.F := by rw [hr.static]
    cases step_effect hs with
    | reshare h1 h2 hv => exact ih.mono _ (vote_no_success _ _ _ _ hv) rfl rfl rfl rfl rfl
    | newOk h1 h2 h3 h4 h5 h6 => exact ih.new_ _ (by simp) h3 rfl rfl rfl rfl rfl
    | newBad h1 h2 h3 h4 h5 h6 h7 =>
      rename_i j d Cs old cb
      exact ih.new_ _ (by simp) h3 (tk := st1.token j) (funext fun k => by unfold upd; split <;> simp_all) rfl rfl rfl rfl
    | distBad h1 h2 h3 =>
      refine ⟨fun k hk => ?_, ih.new, ih.nodup, ?_, ih.len, fun hm => ih.out ((List.mem_append.1 hm).resolve_right (by simp)), ih.full⟩
      · have hk : upd st1.token _ false k = true := hk
        unfold upd at hk
        split at hk
        · cases hk
        · exact ih.tok k hk
      · intro j hj
        obtain ⟨s, d, h1, h2⟩ := ih.src j hj
        exact ⟨s, d, List.mem_append_left _ h1, h2⟩
    | distOk h1 h2 h3 h4 h5 h6 => exact ih.took hr.queueInv h1 h3 rfl rfl rfl (Or.inl ⟨rfl, rfl, by simp⟩)
    | distFull h1 h2 h3 h4 h5 h6 h7 => exact ih.took hr.queueInv h1 h3 rfl rfl rfl (Or.inr ⟨rfl, by rw [hF] at h7; exact h7⟩)
    | handleCall => exact ih.mono _ (by simp) rfl rfl rfl rfl rfl
    | _ => exact ih.mono _ (by simp) rfl rfl rfl rfl rfl

/-- ShareDist messages of one sender. -/
def PEvent.distFrom (s : UInt32) : PEvent → Bool
  | .shareDist s' _ => s' == s
  | _ => false

theorem countP_all {α : Type} {P Q : α → Bool} {l : List α} (hPQ : ∀ x ∈ l, P x = true → Q x = true) (h : l.countP Q ≤ l.countP P) : ∀ x ∈ l, Q x = true → P x = true := by
  induction l with
  | nil => intro x hx; simp at hx
  | cons a l ih =>
    have hle : l.countP P ≤ l.countP Q := List.countP_mono_left fun x hx => hPQ x (List.mem_cons_of_mem _ hx)
    have ha := hPQ a List.mem_cons_self
    rw [List.countP_cons, List.countP_cons] at h
    intro x hx hq
    rw [List.mem_cons] at hx
    by_cases hp : P a = true
    · rw [if_pos hp, if_pos (ha hp)] at h
      rcases hx with hx | hx
      · rw [hx]; exact hp
      · exact ih (fun x hx => hPQ x (List.mem_cons_of_mem _ hx)) (by omega) x hx hq
    · rw [if_neg hp] at h
      rcases hx with hx | hx
      · rw [← hx, if_pos hq] at h; omega
      · refine ih (fun x hx => hPQ x (List.mem_cons_of_mem _ hx)) ?_ x hx hq
        split at h <;> omega

/-- The sender of a Reshare message. -/
def PEvent.reshareKey : PEvent → Option ℕ
  | .reshare s _ => some s.toNat
  | _ => none

/-- The sender of a ShareDist message. -/
def PEvent.distKey : PEvent → Option ℕ
  | .shareDist s _ => some s.toNat
  | _ => none

theorem countP_keys (key : PEvent → Option ℕ) (P : PEvent → Bool) (hP : ∀ e, P e = (key e).isSome) (l : List PEvent) : l.countP P = (l.filterMap key).length := by
  induction l with
  | nil => rfl
  | cons a l ih =>
    rw [List.countP_cons, ih, hP]
    cases h : key a with
    | none => simp [h]
    | some k => simp [h]

/-- Different numbers below `N`, one of them missing, are fewer than `N`. -/
theorem keys_lt {L : List ℕ} {N k : ℕ} (hnd : L.Nodup) (hlt : ∀ x ∈ L, x < N) (hk : k < N) (hn : k ∉ L) : L.length < N := by
  have h1 : (k :: L).Nodup := List.nodup_cons.2 ⟨hn, hnd⟩
  have h2 : (k :: L).toFinset ⊆ Finset.range N := by
    intro x hx
    rw [List.mem_toFinset, List.mem_cons] at hx
    rw [Finset.mem_range]
    rcases hx with rfl | hx
    · exact hk
    · exact hlt x hx
  have := Finset.card_le_card h2
  rw [List.toFinset_card_of_nodup h1, Finset.card_range, List.length_cons] at this
  omega

/-- A party whose Refresh loop waits. -/
theorem PRun.waiting (hF : 1 ≤ p0.F) {evs evs' : List PEvent} {outs outs' : List POut} {p p' : Party G1 G2} {st st' : PState G1} (hrun : PRun codec pp tb p0 (PState.init p0 c) evs outs p st)
    (hw : st.refreshWait = true) (hrun' : PRun codec pp tb p st evs' outs' p' st') :
    st'.refreshWait = true ∧ p' = p ∧ POut.success ∉ outs' ∧ st'.successSent = false ∧ st'.finished = false := by
  obtain ⟨j, rest, Qs, Cs, hb⟩ := hrun.blockedAt hF hw
  have hF1 : 1 ≤ p.F := by rw [hrun.static]; exact hF
  have hns : st.successSent = false := by
    cases h : st.successSent with
    | false => rfl
    | true =>
      obtain ⟨C', hd⟩ := hrun.order.dist h
      rw [hb.at_] at hd; cases hd
  have hnf : st.finished = false := by
    cases h : st.finished with
    | false => rfl
    | true => rw [hrun.finished_sent h] at hns; cases hns
  obtain ⟨h1, h2, h3, h4⟩ := hb.run hF1 hrun'
  exact ⟨h1.wait, h2, h3, (h4 hns).1, (h4 hns).2.trans hnf⟩

/-- The Refresh loop has the commitments of all resharers it still has to handle. -/
structure HasComs (st : PState G1) : Prop where
  wait : st.refreshWait = false
  started : st.refresh ≠ .waiting
  coms : ∀ L Qs Cs, st.refresh = .looping L Qs Cs → ∀ j ∈ L, st.flgCom j = true

theorem HasComs.step {p p' : Party G1 G2} {st st' : PState G1} {ev : PEvent} {out : List POut} (hfl : FlagInv st) (hord : POrder st) (ih : HasComs st)
    (hs : proactStep codec pp tb p st ev = some (.ok (p', st', out))) : HasComs st' := by
  cases step_effect hs with
  | commit j1 j2 h =>
    rename_i j d row ok hv
    refine ⟨ih.wait, ih.started, fun L Qs Cs h1 k hk => ?_⟩
    have hc := ih.coms L Qs Cs h1 k hk
    have hne : k ≠ j := by
      rintro rfl
      rw [hfl.com k hc] at h; cases h
    show upd st.flgCom j ok k = true
    rw [upd_ne _ _ hne]; exact hc
  | mvba h => rw [(hord.started ih.started).2] at h; cases h
  | refreshPark h1 h2 h3 h4 =>
    rw [ih.coms _ _ _ h1 _ List.mem_cons_self] at h3; cases h3
  | refreshCom h1 h2 h3 h4 =>
    refine ⟨ih.wait, by simp, fun L Qs Cs e k hk => ?_⟩
    injection e with e1 e2 e3
    subst e1
    exact ih.coms _ _ _ h1 k (List.mem_cons_of_mem _ hk)
  | refreshRec h1 h2 h3 h4 => rw [ih.wait] at h3; cases h3
  | refreshEnd h1 => exact ⟨ih.wait, by simp, fun L Qs Cs e => by cases e⟩
  | handleBad => exact ⟨ih.wait, ih.started, ih.coms⟩
  | handleOk => exact ⟨ih.wait, ih.started, ih.coms⟩
  | handleComb => exact ⟨ih.wait, ih.started, ih.coms⟩
  | handleCall => exact ⟨ih.wait, ih.started, ih.coms⟩
  | _ => exact ⟨ih.wait, ih.started, ih.coms⟩

theorem HasComs.run {evs evs' : List PEvent} {outs outs' : List POut} {p p' : Party G1 G2} {st st' : PState G1} (hrun : PRun codec pp tb p0 (PState.init p0 c) evs outs p st)
    (ih : HasComs st) (hrun' : PRun codec pp tb p st evs' outs' p' st') : HasComs st' := by
  induction hrun' with
  | nil => exact ih
  | snoc hr hs ih2 => exact ih2.step (hrun.trans hr).flagInv (hrun.trans hr).order hs

/-- A member that waits in the Refresh loop goes on waiting. -/
theorem RefReach.waits {S : RefSetup G1 G2} {t : Fr} {b : ℕ → ℕ → Fr} {F N n : ℕ} (hH : S.Holds pp t b F N) {net net' : RefNet G1 G2} (hR : RefReach codec pp S n net) {i : ℕ}
    (hi : i ∈ S.members) (hw : (net.st i).refreshWait = true) (hs : Relation.ReflTransGen (RefNet.Step codec pp S) net net') :
    (net'.st i).refreshWait = true ∧ net'.party i = net.party i := by
  induction hs with
  | refl => exact ⟨hw, rfl⟩
  | tail h1 hstep ih =>
    obtain ⟨⟨n', hR'⟩, -⟩ := hR.later h1
    obtain ⟨k, hk, ev, p', st', out, ho, hs, rfl⟩ := hstep
    by_cases hik : i = k
    · subst hik
      have := ((hR'.inv.run i hi).waiting (hH.seat hi).F1 ih.1 (PRun.single hs))
      simp only [RefNet.put, upd_same]
      exact ⟨this.1, this.2.1.trans ih.2⟩
    · simp only [RefNet.put, upd_ne _ _ hik]
      exact ih

theorem nodup_keys {α β : Type} {key : α → Option β} {l : List α} (h : ∀ e1 x e2 y e3 k, l = e1 ++ x :: e2 ++ y :: e3 → key x = some k → key y = some k → False) : (l.filterMap key).Nodup := by
  induction l with
  | nil => simp
  | cons a l ih =>
    have ih := ih fun e1 x e2 y e3 k he => h (a :: e1) x e2 y e3 k (by rw [he]; simp)
    cases hk : key a with
    | none => rw [List.filterMap_cons_none hk]; exact ih
    | some k =>
      rw [List.filterMap_cons_some hk, List.nodup_cons]
      refine ⟨fun hm => ?_, ih⟩
      obtain ⟨y, hy, hky⟩ := List.mem_filterMap.1 hm
      obtain ⟨e2, e3, rfl⟩ := List.append_of_mem hy
      exact h [] a e2 y e3 k (by simp) hk hky

/-- The reduced share changes at the end of the Refresh loop only. -/
theorem PRun.redInv {evs : List PEvent} {outs : List POut} {p : Party G1 G2} {st : PState G1} (hrun : PRun codec pp tb p0 (PState.init p0 c) evs outs p st) :
    p.reducedShare = p0.reducedShare ∨ ∃ Cs, st.refresh = .done Cs := by
  induction hrun with
  | nil => exact Or.inl rfl
  | snoc hr hs ih =>
    have hord := hr.order
    cases step_effect hs with
    | mvba h =>
      rcases ih with ih | ⟨Cs, hd⟩
      · exact Or.inl ih
      · rw [hord.wait h] at hd; cases hd
    | refreshPark h1 =>
      rcases ih with ih | ⟨Cs, hd⟩
      · exact Or.inl ih
      · rw [h1] at hd; cases hd
    | refreshCom h1 =>
      rcases ih with ih | ⟨Cs, hd⟩
      · exact Or.inl ih
      · rw [h1] at hd; cases hd
    | refreshRec h1 =>
      rcases ih with ih | ⟨Cs, hd⟩
      · exact Or.inl ih
      · rw [h1] at hd; cases hd
    | refreshEnd h1 => exact Or.inr ⟨_, rfl⟩
    | _ => exact ih

theorem PRun.uncons {evs : List PEvent} {outs : List POut} {p p' : Party G1 G2} {st st' : PState G1} {ev : PEvent} (hrun : PRun codec pp tb p st (ev :: evs) outs p' st') :
    ∃ p1 st1 o1 o2, proactStep codec pp tb p st ev = some (.ok (p1, st1, o1)) ∧ PRun codec pp tb p1 st1 evs o2 p' st' ∧ outs = o1 ++ o2 := by
  induction evs using List.reverseRecOn generalizing outs p' st' with
  | nil =>
    generalize he : [ev] = l at hrun
    cases hrun with
    | nil => cases he
    | snoc hr hs =>
      rename_i evs1 outs1 p1 st1 ev1 out
      cases evs1 with
      | cons a l => simp at he
      | nil =>
        have : ev1 = ev := by simpa using he.symm
        subst this
        generalize he' : ([] : List PEvent) = l at hr
        cases hr with
        | nil => exact ⟨_, _, _, [], hs, PRun.nil, by simp⟩
        | snoc => simp at he'
  | append_singleton l x ih =>
    generalize he : ev :: (l ++ [x]) = l' at hrun
    cases hrun with
    | nil => cases he
    | snoc hr hs =>
      rename_i evs1 outs1 p1 st1 ev1 out
      rw [← List.cons_append] at he
      obtain ⟨e1, e2⟩ := List.append_inj' he rfl
      rw [← e1] at hr
      have e2 : x = ev1 := by simpa using e2
      subst e2
      obtain ⟨a, b, o1, o2, h1, h2, rfl⟩ := ih hr
      exact ⟨a, b, o1, o2 ++ out, h1, h2.snoc hs, by rw [List.append_assoc]⟩

end

end DyCAPS

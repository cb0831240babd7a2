import Verif.Lemmas.RefreshFinish
import Verif.Lemmas.ProactFull

/-! Runs of a committee put together from runs of its members. -/

set_option linter.unusedSectionVars false

namespace DyCAPS

section
variable {G1 G2 GT : Type} [AddCommGroup G1] [Module Fr G1] [AddCommGroup G2] [Module Fr G2] [AddCommGroup GT] [Module Fr GT]
variable [DecidableEq G1] [DecidableEq GT]
variable {codec : PointCodec G1} {pp : Pairing Fr G1 G2 GT} {S : RefSetup G1 G2} {net : RefNet G1 G2}

/-- One member makes several steps. -/
theorem RefReach.segment {n : ℕ} (hR : RefReach codec pp S n net) {i : ℕ} (hi : i ∈ S.members) {evs : List PEvent} {outs : List POut} {p : Party G1 G2} {st : PState G1}
    (hrun : PRun codec pp (S.tb i) (net.party i) (net.st i) evs outs p st)
    (hoff : ∀ e1 x e2, evs = e1 ++ x :: e2 → ∀ net2 : RefNet G1 G2, net2.evs i = net.evs i ++ e1 → (∀ k, k ≠ i → net2.evs k = net.evs k) →
      (∀ k, ∀ o ∈ net.outs k, o ∈ net2.outs k) → net2.Offers codec pp S i x) :
    ∃ n' net', RefReach codec pp S n' net' ∧ net'.party i = p ∧ net'.st i = st ∧ net'.evs i = net.evs i ++ evs ∧ net'.outs i = net.outs i ++ outs ∧
      ∀ k, k ≠ i → net'.party k = net.party k ∧ net'.st k = net.st k ∧ net'.evs k = net.evs k ∧ net'.outs k = net.outs k := by
  induction hrun with
  | nil => exact ⟨n, net, hR, rfl, rfl, by simp, by simp, fun k _ => ⟨rfl, rfl, rfl, rfl⟩⟩
  | snoc hr hs ih =>
    rename_i evs1 outs1 p1 st1 ev p' st' out
    obtain ⟨n', net', h1, h2, h3, h4, h5, h6⟩ := ih (fun e1 x e2 he => hoff e1 x (e2 ++ [ev]) (by rw [he]; simp))
    have ho : net'.Offers codec pp S i ev := hoff evs1 ev [] rfl net' h4 (fun k hk => (h6 k hk).2.2.1) (fun k o ho => by
      by_cases hk : k = i
      · subst hk; rw [h5]; exact List.mem_append_left _ ho
      · rw [(h6 k hk).2.2.2]; exact ho)
    refine ⟨n' + 1, _, h1.step hi ho (by rw [h2, h3]; exact hs), ?_, ?_, ?_, ?_, fun k hk => ?_⟩
    · exact upd_same _ _ _
    · exact upd_same _ _ _
    · show upd net'.evs i _ i = _
      rw [upd_same, h4, List.append_assoc]
    · show upd net'.outs i _ i = _
      rw [upd_same, h5, List.append_assoc]
    · obtain ⟨a, b, c, d⟩ := h6 k hk
      refine ⟨?_, ?_, ?_, ?_⟩
      · show upd net'.party i _ k = _
        rw [upd_ne _ _ hk, a]
      · show upd net'.st i _ k = _
        rw [upd_ne _ _ hk, b]
      · show upd net'.evs i _ k = _
        rw [upd_ne _ _ hk, c]
      · show upd net'.outs i _ k = _
        rw [upd_ne _ _ hk, d]

/-- All members, one after the other, make several steps. -/
theorem RefReach.phase {n : ℕ} (hR : RefReach codec pp S n net) (ev : ℕ → List PEvent) (o : ℕ → List POut) (p : ℕ → Party G1 G2) (st : ℕ → PState G1)
    (hrun : ∀ i ∈ S.members, PRun codec pp (S.tb i) (net.party i) (net.st i) (ev i) (o i) (p i) (st i))
    (hoff : ∀ i ∈ S.members, ∀ e1 x e2, ev i = e1 ++ x :: e2 → ∀ net2 : RefNet G1 G2, net2.evs i = net.evs i ++ e1 → (∀ k, ∀ e ∈ net2.evs k, e ∈ net.evs k ∨ e ∈ ev k) →
      (∀ k, ∀ o ∈ net.outs k, o ∈ net2.outs k) → net2.Offers codec pp S i x) :
    ∃ n' net', RefReach codec pp S n' net' ∧ ∀ i ∈ S.members, net'.party i = p i ∧ net'.st i = st i ∧ net'.evs i = net.evs i ++ ev i ∧ net'.outs i = net.outs i ++ o i := by
  have key : ∀ A : Finset ℕ, A ⊆ S.members → ∃ n' net', RefReach codec pp S n' net' ∧
      (∀ i ∈ A, net'.party i = p i ∧ net'.st i = st i ∧ net'.evs i = net.evs i ++ ev i ∧ net'.outs i = net.outs i ++ o i) ∧
      ∀ i, i ∉ A → net'.party i = net.party i ∧ net'.st i = net.st i ∧ net'.evs i = net.evs i ∧ net'.outs i = net.outs i := by
    intro A
    induction A using Finset.induction_on with
    | empty => exact fun _ => ⟨n, net, hR, fun i hi => by simp at hi, fun i _ => ⟨rfl, rfl, rfl, rfl⟩⟩
    | insert i A hiA ih =>
      intro hsub
      have him : i ∈ S.members := hsub (Finset.mem_insert_self i A)
      obtain ⟨n', net', h1, h2, h3⟩ := ih (fun k hk => hsub (Finset.mem_insert_of_mem hk))
      obtain ⟨a, b, c, d⟩ := h3 i hiA
      obtain ⟨n2, net2, g1, g2, g3, g4, g5, g6⟩ := h1.segment him (evs := ev i) (outs := o i) (p := p i) (st := st i) (by rw [a, b]; exact hrun i him) (by
        intro e1 x e2 he net2 w1 w2 w3
        refine hoff i him e1 x e2 he net2 (by rw [w1, c]) (fun k e hk => ?_) (fun k y hy => w3 k y ?_)
        · by_cases hki : k = i
          · subst hki
            rw [w1, c, List.mem_append] at hk
            rcases hk with hk | hk
            · exact Or.inl hk
            · right; rw [he]; exact List.mem_append_left _ hk
          · rw [w2 k hki] at hk
            by_cases hkA : k ∈ A
            · rw [(h2 k hkA).2.2.1, List.mem_append] at hk
              exact hk
            · rw [(h3 k hkA).2.2.1] at hk
              exact Or.inl hk
        · by_cases hkA : k ∈ A
          · rw [(h2 k hkA).2.2.2]; exact List.mem_append_left _ hy
          · rw [(h3 k hkA).2.2.2]; exact hy)
      refine ⟨n2, net2, g1, fun k hk => ?_, fun k hk => ?_⟩
      · by_cases hki : k = i
        · subst hki
          exact ⟨g2, g3, by rw [g4, c], by rw [g5, d]⟩
        · obtain ⟨w1, w2, w3, w4⟩ := g6 k hki
          rw [w1, w2, w3, w4]
          exact h2 k ((Finset.mem_insert.1 hk).resolve_left hki)
      · rw [Finset.mem_insert, not_or] at hk
        obtain ⟨w1, w2, w3, w4⟩ := g6 k hk.1
        rw [w1, w2, w3, w4]
        exact h3 k hk.2
  obtain ⟨n', net', h1, h2, -⟩ := key S.members (Finset.Subset.refl _)
  exact ⟨n', net', h1, h2⟩

/-- Reshare messages that are answered at once. -/
theorem PRun.countdown {tb : Tbls} {p : Party G1 G2} {st : PState G1} (L : List ℕ) (f : ℕ → PEvent) (g : ℕ → List POut) (hl : L.length ≤ st.voters)
    (h : ∀ k ∈ L, ∀ w, w ≠ 0 → proactStep codec pp tb p { st with voters := w } (f k) = some (.ok (p, { st with voters := w - 1 }, g k))) :
    PRun codec pp tb p st (L.map f) (L.flatMap g) p { st with voters := st.voters - L.length } := by
  induction L using List.reverseRecOn with
  | nil => exact PRun.nil
  | append_singleton L k ih =>
    rw [List.length_append, List.length_singleton] at hl
    rw [List.map_append, List.flatMap_append]
    simp only [List.map_cons, List.map_nil, List.flatMap_cons, List.flatMap_nil, List.append_nil]
    have := (ih (by omega) fun k' hk' => h k' (List.mem_append_left _ hk')).snoc (h k (List.mem_append_right _ (List.mem_singleton.2 rfl)) _ (by omega))
    rw [List.length_append, List.length_singleton, ← Nat.sub_sub]
    exact this

theorem map_split_fresh {α β : Type} {f : α → β} {L : List α} (hnd : (L.map f).Nodup) {e1 e2 : List β} {x : β} (h : L.map f = e1 ++ x :: e2) : x ∉ e1 := by
  rw [h, List.nodup_append] at hnd
  exact fun hx => hnd.2.2 x hx x (List.mem_cons_self ..) rfl

/-- A key that events of interest carry once tells them apart. -/
theorem fresh_of_keys {α β : Type} (key : α → Option β) {l e1 e2 : List α} {x : α} (hnd : (l.filterMap key).Nodup) (h : l = e1 ++ x :: e2) (hx : (key x).isSome) : x ∉ e1 := by
  obtain ⟨y, hy⟩ := Option.isSome_iff_exists.1 hx
  rw [h, List.filterMap_append, List.filterMap_cons_some hy, List.nodup_append] at hnd
  intro hm
  exact hnd.2.2 y (List.mem_filterMap.2 ⟨x, hm, hy⟩) y (List.mem_cons_self ..) rfl

theorem nodup_oneTo (n : ℕ) : (oneTo n).Nodup := by
  unfold oneTo
  exact List.nodup_range.map fun a b h => Nat.succ.inj h

/-- The sender and the resharer of a Recover message. -/
def PEvent.takeKey : PEvent → Option (UInt32 × UInt32)
  | .takeRecover s d => some (s, (unmarshalD (⟨0, [], [], []⟩ : PRecover) d).index)
  | _ => none

theorem takeKey_batches (codec : PointCodec G1) (pp : Pairing Fr G1 G2 GT) (t : Fr) (f : ℕ → List Fr) (sg : ℕ → ℕ → Bytes) (hsg : ∀ k i, (sg k i).length < 2 ^ 32) (n : ℕ)
    (hn : n < 2 ^ 32) (ks : List ℕ) (hnd : ks.Nodup) (hlt : ∀ k ∈ ks, k < 2 ^ 32) :
    ((ks.flatMap fun k => batchEvents codec pp t k (f k) (sg k) n).filterMap PEvent.takeKey).Nodup := by
  have e : ∀ k ∈ ks, (batchEvents codec pp t k (f k) (sg k) n).filterMap PEvent.takeKey = (oneTo n).map fun i => (UInt32.ofNat (i - 1), UInt32.ofNat k) := by
    intro k hk
    unfold batchEvents
    rw [List.filterMap_flatMap, List.map_eq_flatMap]
    congr 1
    funext i
    have : (unmarshalD (⟨0, [], [], []⟩ : PRecover) (recoverBytes codec k (polyVal (f k) (i : Fr)) (quotVal (f k) (i : Fr) t • pp.g1) (sg k i))).index = UInt32.ofNat k := by
      have hsize := size_recover codec k (hlt k hk) (polyVal (f k) (i : Fr)) (quotVal (f k) (i : Fr) t • pp.g1) (sg k i) (hsg k i)
      unfold recoverBytes at hsize ⊢
      rw [unmarshalD, rt_PRecover _ hsize]
      rfl
    simp only [List.filterMap_cons, List.filterMap_nil, PEvent.takeKey, this]
  rw [List.filterMap_flatMap, List.flatMap_congr e, List.nodup_flatMap]
  refine ⟨fun k hk => ?_, ?_⟩
  · refine List.Nodup.map_on ?_ (nodup_oneTo n)
    intro a ha b' hb he
    rw [mem_oneTo] at ha hb
    have := congrArg UInt32.toNat (Prod.mk.inj he).1
    rw [UInt32.toNat_ofNat', UInt32.toNat_ofNat', Nat.mod_eq_of_lt (by omega), Nat.mod_eq_of_lt (by omega)] at this
    omega
  · refine hnd.imp_of_mem ?_
    intro a c ha hc hac
    rw [Function.onFun, List.disjoint_left]
    intro x hx hx'
    obtain ⟨i, -, rfl⟩ := List.mem_map.1 hx
    obtain ⟨i', -, he⟩ := List.mem_map.1 hx'
    have := congrArg UInt32.toNat (Prod.mk.inj he).2
    rw [UInt32.toNat_ofNat', UInt32.toNat_ofNat', Nat.mod_eq_of_lt (hlt c hc), Nat.mod_eq_of_lt (hlt a ha)] at this
    exact hac this.symm

end

end DyCAPS

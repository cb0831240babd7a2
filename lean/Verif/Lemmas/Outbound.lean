import Mathlib.Algebra.BigOperators.Group.Finset.Basic
import Mathlib.Algebra.Order.BigOperators.Group.Finset
import Verif.Lemmas.Framing
import Verif.Lemmas.Path
import Verif.Spec.Outbound

/-! Helper lemmas about sending. -/

namespace DyCAPS

theorem frame_len (m : PMessage) : 4 ≤ (frame m).length := by
  simp [frame, intToBytes, uint32ToBytes]

theorem sendStream_len (ms : List PMessage) : 4 * ms.length ≤ (sendStream ms).length := by
  induction ms with
  | nil => simp [sendStream]
  | cons m ms ih =>
    have := frame_len m
    simp only [sendStream, List.flatMap_cons, List.length_append, List.length_cons] at ih ⊢
    omega

theorem sendStream_append (a b : List PMessage) : sendStream (a ++ b) = sendStream a ++ sendStream b := by
  simp [sendStream]

theorem meant_append (N : ℕ) (evs : List OutEvent) (e : OutEvent) (g d : ℕ) : meant N (evs ++ [e]) g d = meant N evs g d ++ meant N [e] g d := by
  simp only [meant, List.filterMap_append]

theorem ofConn_all (N d : ℕ) (m : PMessage) : ofConn ((List.range N).map fun d => (d, m)) d = if d < N then [m] else [] := by
  induction N with
  | zero => simp [ofConn]
  | succ N ih =>
    simp only [ofConn] at ih
    simp only [ofConn, List.range_succ, List.map_append, List.filter_append, ih]
    by_cases h : N = d
    · subst h
      simp
    · have h1 : d < N + 1 ↔ d < N := by omega
      simp [h, h1]

/-- One connection: the messages taken by the writer (`taken`), and how far it is. -/
structure ConnInv (room : ℕ) (put : List (ℕ × PMessage)) (q : List PMessage) (busy wire got : Bytes) : Prop where
  chan : ∃ taken, put.map (·.2) = taken ++ q ∧ sendStream taken = got ++ wire ++ busy ∧ 4 * taken.length ≤ (got ++ wire).length + 4
  cap : q.length ≤ maxMessage
  room : wire.length ≤ room

structure OutInv (N room : ℕ) (evs : List OutEvent) (s : OutState) : Prop where
  task : ∀ g d, ofConn (s.put d) g ++ ofConn (s.tasks g) d = meant N evs g d
  conn : ∀ d, ConnInv room (s.put d) (s.sendQ d) (s.busy d) (s.wire d) (s.got d)
  once : ∀ g, ((s.tasks g).map (·.1)).Nodup ∧ ∀ e ∈ s.tasks g, e.1 < N
  none_ : ∀ d, N ≤ d → s.put d = []

theorem OutInv.init (N room : ℕ) : OutInv N room [] .init :=
  ⟨fun g d => rfl, fun d => ⟨⟨[], rfl, rfl, by simp⟩, by simp [OutState.init], by simp [OutState.init]⟩, fun g => ⟨by simp [OutState.init], by simp [OutState.init]⟩, fun _ _ => rfl⟩


theorem ofConn_app (a b : List (ℕ × PMessage)) (d : ℕ) : ofConn (a ++ b) d = ofConn a d ++ ofConn b d := by simp [ofConn]

theorem ofConn_one (x : ℕ × PMessage) (d : ℕ) : ofConn [x] d = if x.1 = d then [x.2] else [] := by
  by_cases h : x.1 = d <;> simp [ofConn, h]

theorem ofConn_cons (x : ℕ × PMessage) (l : List (ℕ × PMessage)) (d : ℕ) : ofConn (x :: l) d = (if x.1 = d then [x.2] else []) ++ ofConn l d := by
  rw [← ofConn_one, ← ofConn_app]; rfl

theorem OutInv.step {N room : ℕ} {evs : List OutEvent} {s s' : OutState} {e : OutEvent} (hi : OutInv N room evs s) (hs : outStep N room s e = some s') : OutInv N room (evs ++ [e]) s' := by
  cases e with
  | broadcast g m =>
    simp only [outStep] at hs
    split at hs
    swap
    · cases hs
    rename_i h0
    cases hs
    refine ⟨fun g' d => ?_, hi.conn, fun g' => ?_, hi.none_⟩
    · rw [meant_append, ← hi.task g' d]
      by_cases hg : g' = g
      · subst hg
        show _ ++ ofConn (Function.update s.tasks g' _ g') d = _
        rw [Function.update_self, ofConn_all, h0]
        by_cases hd : d < N <;> simp [meant, hd, ofConn]
      · show _ ++ ofConn (Function.update s.tasks g _ g') d = _
        rw [Function.update_of_ne hg]
        simp [meant, Ne.symm hg]
    · show (List.Nodup ((Function.update s.tasks g _ g').map _)) ∧ ∀ e ∈ Function.update s.tasks g _ g', _
      by_cases hg : g' = g
      · subst hg
        rw [Function.update_self]
        refine ⟨?_, ?_⟩
        · rw [List.map_map]
          simpa [Function.comp_def] using List.nodup_range
        · intro e he
          obtain ⟨d, hd, rfl⟩ := List.mem_map.1 he
          exact List.mem_range.1 hd
      · rw [Function.update_of_ne hg]
        exact hi.once g'
  | send g d0 m =>
    simp only [outStep] at hs
    split at hs
    swap
    · cases hs
    rename_i h0
    cases hs
    refine ⟨fun g' d => ?_, hi.conn, fun g' => ?_, hi.none_⟩
    · rw [meant_append, ← hi.task g' d]
      by_cases hg : g' = g
      · subst hg
        show _ ++ ofConn (Function.update s.tasks g' _ g') d = _
        rw [Function.update_self, ofConn_one, h0.1]
        by_cases hd : d0 = d <;> simp [meant, hd, ofConn]
      · show _ ++ ofConn (Function.update s.tasks g _ g') d = _
        rw [Function.update_of_ne hg]
        simp [meant, Ne.symm hg]
    · show (List.Nodup ((Function.update s.tasks g _ g').map _)) ∧ ∀ e ∈ Function.update s.tasks g _ g', _
      by_cases hg : g' = g
      · subst hg
        rw [Function.update_self]
        exact ⟨by simp, by simpa using h0.2⟩
      · rw [Function.update_of_ne hg]
        exact hi.once g'
  | put g =>
    simp only [outStep] at hs
    split at hs
    · cases hs
    rename_i d0 m rest ht
    split at hs
    swap
    · cases hs
    rename_i hq
    cases hs
    have ho := hi.once g
    rw [ht] at ho
    refine ⟨fun g' d => ?_, fun d => ?_, fun g' => ?_, fun d hd => ?_⟩
    · rw [meant_append, ← hi.task g' d]
      have hm : meant N [OutEvent.put g] g' d = [] := rfl
      rw [hm, List.append_nil]
      show ofConn (Function.update s.put d0 _ d) g' ++ ofConn (Function.update s.tasks g rest g') d = _
      by_cases hd : d = d0
      · subst hd
        rw [Function.update_self, ofConn_app, ofConn_one]
        by_cases hg : g' = g
        · subst hg
          rw [Function.update_self, ht, ofConn_cons]
          simp
        · rw [Function.update_of_ne hg]
          simp [Ne.symm hg]
      · rw [Function.update_of_ne hd]
        by_cases hg : g' = g
        · subst hg
          rw [Function.update_self, ht, ofConn_cons]
          simp [Ne.symm hd]
        · rw [Function.update_of_ne hg]
    · show ConnInv room (Function.update s.put d0 _ d) (Function.update s.sendQ d0 _ d) _ _ _
      by_cases hd : d = d0
      · subst hd
        rw [Function.update_self, Function.update_self]
        obtain ⟨⟨tk, h1, h2, h3⟩, h4, h5⟩ := hi.conn d
        exact ⟨⟨tk, by rw [List.map_append, h1, List.append_assoc]; rfl, h2, h3⟩, by rw [List.length_append]; simpa using hq, h5⟩
      · rw [Function.update_of_ne hd, Function.update_of_ne hd]
        exact hi.conn d
    · show (List.Nodup ((Function.update s.tasks g rest g').map _)) ∧ ∀ e ∈ Function.update s.tasks g rest g', _
      by_cases hg : g' = g
      · subst hg
        rw [Function.update_self]
        exact ⟨(List.nodup_cons.1 ho.1).2, fun e he => ho.2 e (List.mem_cons_of_mem _ he)⟩
      · rw [Function.update_of_ne hg]
        exact hi.once g'
    · show Function.update s.put d0 _ d = []
      have : d0 < N := ho.2 _ List.mem_cons_self
      rw [Function.update_of_ne (by omega)]
      exact hi.none_ d hd
  | take d0 =>
    simp only [outStep] at hs
    split at hs
    swap
    · cases hs
    rename_i m rest hb hq
    cases hs
    refine ⟨fun g' d => ?_, fun d => ?_, hi.once, hi.none_⟩
    · rw [meant_append, ← hi.task g' d]
      exact (List.append_nil _).symm
    · show ConnInv room _ (Function.update s.sendQ d0 _ d) (Function.update s.busy d0 _ d) _ _
      by_cases hd : d = d0
      · subst hd
        rw [Function.update_self, Function.update_self]
        obtain ⟨⟨tk, h1, h2, h3⟩, h4, h5⟩ := hi.conn d
        have hl := sendStream_len tk
        rw [h2, hb, List.append_nil] at hl
        refine ⟨⟨tk ++ [m], by rw [h1, hq, List.append_assoc]; rfl, ?_, ?_⟩, ?_, h5⟩
        · rw [sendStream_append, h2, hb, List.append_nil]
          simp [sendStream]
        · show 4 * (tk ++ [m]).length ≤ (s.got d ++ s.wire d).length + 4
          rw [List.length_append, List.length_singleton]
          omega
        · rw [hq] at h4
          exact (Nat.le_succ _).trans h4
      · rw [Function.update_of_ne hd, Function.update_of_ne hd]
        exact hi.conn d
  | copy d0 =>
    simp only [outStep] at hs
    split at hs
    · cases hs
    rename_i b rest hb
    split at hs
    swap
    · cases hs
    rename_i hr
    cases hs
    refine ⟨fun g' d => ?_, fun d => ?_, hi.once, hi.none_⟩
    · rw [meant_append, ← hi.task g' d]
      exact (List.append_nil _).symm
    · show ConnInv room _ _ (Function.update s.busy d0 _ d) (Function.update s.wire d0 _ d) _
      by_cases hd : d = d0
      · subst hd
        rw [Function.update_self, Function.update_self]
        obtain ⟨⟨tk, h1, h2, h3⟩, h4, h5⟩ := hi.conn d
        refine ⟨⟨tk, h1, by rw [h2, hb]; simp, ?_⟩, h4, by simpa using hr⟩
        simp only [List.length_append, List.length_singleton] at h3 ⊢
        omega
      · rw [Function.update_of_ne hd, Function.update_of_ne hd]
        exact hi.conn d
  | read d0 =>
    simp only [outStep] at hs
    split at hs
    · cases hs
    rename_i b rest hb
    cases hs
    refine ⟨fun g' d => ?_, fun d => ?_, hi.once, hi.none_⟩
    · rw [meant_append, ← hi.task g' d]
      exact (List.append_nil _).symm
    · show ConnInv room _ _ _ (Function.update s.wire d0 _ d) (Function.update s.got d0 _ d)
      by_cases hd : d = d0
      · subst hd
        rw [Function.update_self, Function.update_self]
        obtain ⟨⟨tk, h1, h2, h3⟩, h4, h5⟩ := hi.conn d
        rw [hb] at h5 h3
        refine ⟨⟨tk, h1, by rw [h2, hb]; simp, ?_⟩, h4, (Nat.le_succ _).trans h5⟩
        simp only [List.length_append, List.length_cons] at h3 ⊢
        simp only [List.length_nil]
        omega
      · rw [Function.update_of_ne hd, Function.update_of_ne hd]
        exact hi.conn d

theorem OutInv.run {N room : ℕ} {evs : List OutEvent} {s : OutState} (h : OutRun N room .init evs s) : OutInv N room evs s := by
  induction h with
  | nil => exact .init N room
  | snoc _ hs ih => exact ih.step hs

theorem OutRun.trans {N room : ℕ} {s s' s'' : OutState} {e e' : List OutEvent} (h : OutRun N room s e s') (h' : OutRun N room s' e' s'') : OutRun N room s (e ++ e') s'' := by
  induction h' with
  | nil => simpa using h
  | snoc _ hs ih => rw [← List.append_assoc]; exact ih.snoc hs

/-- A connection beyond the committee is not used. -/
theorem OutInv.unused {N room : ℕ} {evs : List OutEvent} {s : OutState} (hi : OutInv N room evs s) {d : ℕ} (hd : N ≤ d) : s.sendQ d = [] ∧ s.busy d = [] ∧ s.wire d = [] := by
  obtain ⟨⟨tk, h1, h2, -⟩, -, -⟩ := hi.conn d
  rw [hi.none_ d hd] at h1
  obtain ⟨rfl, h3⟩ := List.append_eq_nil_iff.1 h1.symm
  have h4 : s.got d ++ s.wire d ++ s.busy d = [] := h2.symm
  simp only [List.append_eq_nil_iff] at h4
  exact ⟨h3, h4.2, h4.1.2⟩

/-- A goroutine that makes no calls has nothing to do. -/
theorem OutInv.idle {N room n : ℕ} {evs : List OutEvent} {s : OutState} (hi : OutInv N room evs s) (hc : CallsBelow n evs) {g : ℕ} (hg : n ≤ g) : s.tasks g = [] := by
  rcases ht : s.tasks g with _ | ⟨⟨d, m⟩, rest⟩
  · rfl
  · exfalso
    have h := hi.task g d
    rw [ht, ofConn_cons, if_pos rfl] at h
    have hm : m ∈ meant N evs g d := by rw [← h]; simp
    obtain ⟨e, he, h'⟩ := List.mem_filterMap.1 hm
    have := hc e he
    cases e with
    | broadcast g' m' =>
      simp only at h' this
      split at h'
      · omega
      · cases h'
    | send g' d' m' =>
      simp only at h' this
      split at h'
      · omega
      · cases h'
    | _ => cases h'

/-- Steps left for the goroutines and the readers. -/
def OutState.work (n N : ℕ) (s : OutState) : ℕ :=
  ∑ g ∈ Finset.range n, ((s.tasks g).map fun e => 2 * (frame e.2).length + 2).sum +
    (∑ d ∈ Finset.range N, ((s.sendQ d).map fun m => 2 * (frame m).length + 1).sum + (∑ d ∈ Finset.range N, 2 * (s.busy d).length + ∑ d ∈ Finset.range N, (s.wire d).length))

theorem sum_upd {α : Type} (f : α → ℕ) (h : ℕ → α) (n a : ℕ) (v : α) (ha : a < n) :
    ∑ x ∈ Finset.range n, f (Function.update h a v x) + f (h a) = ∑ x ∈ Finset.range n, f (h x) + f v := by
  have hm : a ∈ Finset.range n := Finset.mem_range.2 ha
  rw [← Finset.sum_erase_add _ _ hm, ← Finset.sum_erase_add _ (fun x => f (h x)) hm, Function.update_self]
  have : ∑ x ∈ (Finset.range n).erase a, f (Function.update h a v x) = ∑ x ∈ (Finset.range n).erase a, f (h x) :=
    Finset.sum_congr rfl fun x hx => by rw [Function.update_of_ne (Finset.ne_of_mem_erase hx)]
  rw [this]
  omega

theorem out_step_work {N room n : ℕ} {evs : List OutEvent} {s s' : OutState} {e : OutEvent} {reads : ℕ → Prop} (hi : OutInv N room evs s) (hc : CallsBelow n evs) (he : e.goesOn reads)
    (hs : outStep N room s e = some s') : s'.work n N + 1 = s.work n N := by
  cases e with
  | broadcast g m => cases he
  | send g d m => cases he
  | put g =>
    have hg : g < n := by
      by_contra hg
      have := hi.idle hc (not_lt.1 hg)
      simp [outStep, this] at hs
    simp only [outStep] at hs
    split at hs
    · cases hs
    rename_i d m rest ht
    split at hs
    swap
    · cases hs
    cases hs
    have hd : d < N := (hi.once g).2 (d, m) (by rw [ht]; exact List.mem_cons_self)
    have h1 := sum_upd (fun l : List (ℕ × PMessage) => (l.map fun e => 2 * (frame e.2).length + 2).sum) s.tasks n g rest hg
    have h2 := sum_upd (fun l : List PMessage => (l.map fun m => 2 * (frame m).length + 1).sum) s.sendQ N d (s.sendQ d ++ [m]) hd
    rw [ht] at h1
    simp only [List.map_cons, List.sum_cons, List.map_append, List.sum_append, List.map_nil, List.sum_nil] at h1 h2
    simp only [OutState.work]
    omega
  | take d =>
    have hd : d < N := by
      by_contra hd
      obtain ⟨h1, h2, h3⟩ := hi.unused (not_lt.1 hd)
      simp [outStep, h1] at hs
    simp only [outStep] at hs
    split at hs
    swap
    · cases hs
    rename_i m rest hb hq
    cases hs
    have h2 := sum_upd (fun l : List PMessage => (l.map fun m => 2 * (frame m).length + 1).sum) s.sendQ N d rest hd
    have h3 := sum_upd (fun l : Bytes => 2 * l.length) s.busy N d (frame m) hd
    rw [hq] at h2
    rw [hb] at h3
    simp only [List.map_cons, List.sum_cons, List.length_nil] at h2 h3
    simp only [OutState.work]
    omega
  | copy d =>
    have hd : d < N := by
      by_contra hd
      obtain ⟨h1, h2, h3⟩ := hi.unused (not_lt.1 hd)
      simp [outStep, h2] at hs
    simp only [outStep] at hs
    split at hs
    · cases hs
    rename_i b rest hb
    split at hs
    swap
    · cases hs
    cases hs
    have h2 := sum_upd (fun l : Bytes => 2 * l.length) s.busy N d rest hd
    have h3 := sum_upd (fun l : Bytes => l.length) s.wire N d (s.wire d ++ [b]) hd
    rw [hb] at h2
    simp only [List.length_cons, List.length_append, List.length_nil] at h2 h3
    simp only [OutState.work]
    omega
  | read d =>
    have hd : d < N := by
      by_contra hd
      obtain ⟨h1, h2, h3⟩ := hi.unused (not_lt.1 hd)
      simp [outStep, h3] at hs
    simp only [outStep] at hs
    split at hs
    · cases hs
    rename_i b rest hb
    cases hs
    have h3 := sum_upd (fun l : Bytes => l.length) s.wire N d rest hd
    rw [hb] at h3
    simp only [List.length_cons] at h3
    simp only [OutState.work]
    omega

theorem CallsBelow.snoc {n : ℕ} {evs : List OutEvent} {e : OutEvent} {reads : ℕ → Prop} (h : CallsBelow n evs) (he : e.goesOn reads) : CallsBelow n (evs ++ [e]) := by
  intro x hx
  rcases List.mem_append.1 hx with hx | hx
  · exact h x hx
  · rw [List.mem_singleton.1 hx]
    cases e with
    | broadcast g m => cases he
    | send g d m => cases he
    | _ => trivial

theorem calls_bound (evs : List OutEvent) : ∃ n, CallsBelow n evs := by
  induction evs with
  | nil => exact ⟨0, fun e he => absurd he List.not_mem_nil⟩
  | cons e evs ih =>
    obtain ⟨n, hn⟩ := ih
    have mono : ∀ k, CallsBelow (max n k) evs := by
      intro k x hx
      have := hn x hx
      cases x with
      | broadcast g m => exact lt_of_lt_of_le this (le_max_left _ _)
      | send g d m => exact lt_of_lt_of_le this (le_max_left _ _)
      | _ => trivial
    have key : ∀ k, (match e with | .broadcast g _ => g < k | .send g _ _ => g < k | _ => True) → ∃ n, CallsBelow n (e :: evs) := by
      intro k hk
      refine ⟨max n k, fun x hx => ?_⟩
      rcases List.mem_cons.1 hx with rfl | hx
      · cases x with
        | broadcast g m => exact lt_of_lt_of_le hk (le_max_right _ _)
        | send g d m => exact lt_of_lt_of_le hk (le_max_right _ _)
        | _ => trivial
      · exact mono k x hx
    cases e with
    | broadcast g m => exact key (g + 1) (Nat.lt_succ_self _)
    | send g d m => exact key (g + 1) (Nat.lt_succ_self _)
    | _ => exact key 0 trivial

theorem out_run_work {N room n : ℕ} {evs evs' : List OutEvent} {s s' : OutState} {reads : ℕ → Prop} (hi : OutInv N room evs s) (hc : CallsBelow n evs) (he : ∀ e ∈ evs', e.goesOn reads)
    (h : OutRun N room s evs' s') : OutInv N room (evs ++ evs') s' ∧ CallsBelow n (evs ++ evs') ∧ s'.work n N + evs'.length = s.work n N := by
  induction h with
  | nil => simpa using ⟨hi, hc⟩
  | snoc _ hs ih =>
    obtain ⟨h1, h2, h3⟩ := ih fun e h => he e (List.mem_append_left _ h)
    have h4 := he _ (List.mem_append_right _ (List.mem_singleton_self _))
    have h5 := out_step_work h1 h2 h4 hs
    rw [← List.append_assoc]
    refine ⟨h1.step hs, h2.snoc h4, ?_⟩
    rw [List.length_append, List.length_singleton]
    omega

/-- The goroutines and readers go on until nothing can happen. -/
theorem exists_quiet {N room n : ℕ} {reads : ℕ → Prop} : ∀ (w : ℕ) {evs : List OutEvent} {s : OutState}, s.work n N = w → OutInv N room evs s → CallsBelow n evs →
    ∃ evs' s', (∀ e ∈ evs', e.goesOn reads) ∧ OutRun N room s evs' s' ∧ OutQuiet N room reads s' := by
  intro w
  induction w with
  | zero =>
    intro evs s hw hi hc
    refine ⟨[], s, by simp, .nil, fun e he => ?_⟩
    rcases h : outStep N room s e with _ | s'
    · rfl
    · have := out_step_work hi hc he h
      omega
  | succ w ih =>
    intro evs s hw hi hc
    by_cases hq : OutQuiet N room reads s
    · exact ⟨[], s, by simp, .nil, hq⟩
    · unfold OutQuiet at hq
      push Not at hq
      obtain ⟨e, he, hne⟩ := hq
      obtain ⟨s1, hs⟩ := Option.ne_none_iff_exists'.1 hne
      obtain ⟨evs', s', h1, h2, h3⟩ := ih (by have := out_step_work hi hc he hs; omega) (hi.step hs) (hc.snoc he)
      refine ⟨e :: evs', s', ?_, ?_, h3⟩
      · intro x hx
        rcases List.mem_cons.1 hx with rfl | hx
        · exact he
        · exact h1 x hx
      · exact (OutRun.nil.snoc hs).trans h2

theorem quiet_conn {N room : ℕ} {reads : ℕ → Prop} {s : OutState} (hr : 1 ≤ room) (h : OutQuiet N room reads s) {d : ℕ} (hd : reads d) : s.sendQ d = [] ∧ s.busy d = [] ∧ s.wire d = [] := by
  have h1 : s.wire d = [] := by
    have := h (.read d) hd
    simp only [outStep] at this
    split at this
    · assumption
    · cases this
  have h2 : s.busy d = [] := by
    have := h (.copy d) trivial
    simp only [outStep] at this
    split at this
    · assumption
    · rw [if_pos (by rw [h1]; exact hr)] at this
      cases this
  have h3 : s.sendQ d = [] := by
    have := h (.take d) trivial
    simp only [outStep, h2] at this
    split at this
    · cases this
    · rename_i h'
      rcases hq : s.sendQ d with _ | ⟨m, rest⟩
      · rfl
      · exact absurd hq (h' m rest rfl)
  exact ⟨h3, h2, h1⟩

theorem quiet_task {N room : ℕ} {reads : ℕ → Prop} {s : OutState} (h : OutQuiet N room reads s) {g d : ℕ} {m : PMessage} {rest : List (ℕ × PMessage)} (ht : s.tasks g = (d, m) :: rest) :
    maxMessage ≤ (s.sendQ d).length := by
  have := h (.put g) trivial
  simp only [outStep, ht] at this
  split at this
  · cases this
  · omega

/-- Nothing can go to `x` any more unless it reads. -/
def Choked (room : ℕ) (s : OutState) (x : ℕ) : Prop := maxMessage ≤ (s.sendQ x).length ∧ s.busy x ≠ [] ∧ room ≤ (s.wire x).length

theorem quiet_choked {N room : ℕ} {reads : ℕ → Prop} {s : OutState} (h : OutQuiet N room reads s) {x : ℕ} (hq : maxMessage ≤ (s.sendQ x).length) : Choked room s x := by
  have hb : s.busy x ≠ [] := by
    intro hb
    have := h (.take x) trivial
    simp only [outStep, hb] at this
    split at this
    · cases this
    · rename_i h'
      rcases hq' : s.sendQ x with _ | ⟨m, rest⟩
      · rw [hq'] at hq
        cases hq
      · exact absurd hq' (h' m rest rfl)
  refine ⟨hq, hb, ?_⟩
  have := h (.copy x) trivial
  simp only [outStep] at this
  split at this
  · rename_i h'
    exact absurd h' hb
  · split at this
    · cases this
    · omega

theorem Choked.step {N room : ℕ} {s s' : OutState} {x : ℕ} {e : OutEvent} (h : Choked room s x) (he : e ≠ .read x) (hs : outStep N room s e = some s') :
    Choked room s' x ∧ ∀ g m rest, s.tasks g = (x, m) :: rest → s'.tasks g = s.tasks g ∧ (∀ m, e ≠ .broadcast g m) ∧ (∀ d m, e ≠ .send g d m) ∧ e ≠ .put g := by
  obtain ⟨h1, h2, h3⟩ := h
  cases e with
  | broadcast g m =>
    simp only [outStep] at hs
    split at hs
    swap
    · cases hs
    rename_i h0
    cases hs
    refine ⟨⟨h1, h2, h3⟩, fun g' m' rest ht => ?_⟩
    have hg : g' ≠ g := by
      rintro rfl
      rw [h0] at ht
      cases ht
    exact ⟨Function.update_of_ne hg _ _, fun m => by simp [Ne.symm hg], fun d m => by simp, by simp⟩
  | send g d m =>
    simp only [outStep] at hs
    split at hs
    swap
    · cases hs
    rename_i h0
    cases hs
    refine ⟨⟨h1, h2, h3⟩, fun g' m' rest ht => ?_⟩
    have hg : g' ≠ g := by
      rintro rfl
      rw [h0.1] at ht
      cases ht
    exact ⟨Function.update_of_ne hg _ _, fun m => by simp, fun d m => by simp [Ne.symm hg], by simp⟩
  | put g =>
    simp only [outStep] at hs
    split at hs
    · cases hs
    rename_i d m rest ht
    split at hs
    swap
    · cases hs
    rename_i hq
    cases hs
    have hd : x ≠ d := by
      rintro rfl
      omega
    refine ⟨⟨?_, h2, h3⟩, fun g' m' rest' ht' => ?_⟩
    · show maxMessage ≤ (Function.update s.sendQ d _ x).length
      rw [Function.update_of_ne hd]
      exact h1
    · have hg : g' ≠ g := by
        rintro rfl
        rw [ht] at ht'
        cases ht'
        exact hd rfl
      exact ⟨Function.update_of_ne hg _ _, fun m => by simp, fun d m => by simp, by simp [Ne.symm hg]⟩
  | take d =>
    simp only [outStep] at hs
    split at hs
    swap
    · cases hs
    rename_i m rest hb hq
    cases hs
    have hd : x ≠ d := by
      rintro rfl
      exact h2 hb
    refine ⟨⟨?_, ?_, h3⟩, fun g m rest ht => ⟨rfl, by simp, by simp, by simp⟩⟩
    · show maxMessage ≤ (Function.update s.sendQ d _ x).length
      rw [Function.update_of_ne hd]
      exact h1
    · show Function.update s.busy d _ x ≠ []
      rw [Function.update_of_ne hd]
      exact h2
  | copy d =>
    simp only [outStep] at hs
    split at hs
    · cases hs
    rename_i b rest hb
    split at hs
    swap
    · cases hs
    rename_i hr
    cases hs
    have hd : x ≠ d := by
      rintro rfl
      omega
    refine ⟨⟨h1, ?_, ?_⟩, fun g m rest ht => ⟨rfl, by simp, by simp, by simp⟩⟩
    · show Function.update s.busy d _ x ≠ []
      rw [Function.update_of_ne hd]
      exact h2
    · show room ≤ (Function.update s.wire d _ x).length
      rw [Function.update_of_ne hd]
      exact h3
  | read d =>
    simp only [outStep] at hs
    split at hs
    · cases hs
    cases hs
    have hd : x ≠ d := by
      rintro rfl
      exact he rfl
    refine ⟨⟨h1, h2, ?_⟩, fun g m rest ht => ⟨rfl, by simp, by simp, by simp⟩⟩
    show room ≤ (Function.update s.wire d _ x).length
    rw [Function.update_of_ne hd]
    exact h3

/-- A goroutine that waits for `x` waits on. -/
theorem Choked.run {N room : ℕ} {s s' : OutState} {x : ℕ} {evs : List OutEvent} (h : Choked room s x) (he : .read x ∉ evs) (hr : OutRun N room s evs s') :
    Choked room s' x ∧ ∀ g m rest, s.tasks g = (x, m) :: rest → s'.tasks g = s.tasks g ∧ ∀ d, meant N evs g d = [] := by
  induction hr with
  | nil => exact ⟨h, fun _ _ _ _ => ⟨rfl, fun _ => rfl⟩⟩
  | snoc _ hs ih =>
    obtain ⟨h1, h2⟩ := ih fun hm => he (List.mem_append_left _ hm)
    obtain ⟨h3, h4⟩ := h1.step (fun e => he (List.mem_append_right _ (by rw [e]; exact List.mem_singleton_self _))) hs
    refine ⟨h3, fun g m rest ht => ?_⟩
    obtain ⟨a1, a2⟩ := h2 g m rest ht
    obtain ⟨b1, b2, b3, -⟩ := h4 g m rest (a1.trans ht)
    refine ⟨b1.trans a1, fun d => ?_⟩
    rw [meant_append, a2 d, List.nil_append]
    rename_i ev _ _
    cases ev with
    | broadcast g' m' =>
      have : g' ≠ g := fun e => b2 m' (by rw [e])
      simp [meant, this]
    | send g' d' m' =>
      have : g' ≠ g := fun e => b3 d' m' (by rw [e])
      simp [meant, this]
    | _ => rfl

/-- As long as only channel sends and the like happen, a goroutine works off its list. -/
theorem tasks_suffix {N room : ℕ} {s s' : OutState} {evs : List OutEvent} {reads : ℕ → Prop} (hr : OutRun N room s evs s') (he : ∀ e ∈ evs, e.goesOn reads) (g : ℕ) : s'.tasks g <:+ s.tasks g := by
  induction hr with
  | nil => exact List.suffix_rfl
  | snoc _ hs ih =>
    refine List.IsSuffix.trans ?_ (ih fun e h => he e (List.mem_append_left _ h))
    have h4 := he _ (List.mem_append_right _ (List.mem_singleton_self _))
    rename_i ev _ _
    cases ev with
    | broadcast g m => cases h4
    | send g d m => cases h4
    | put g' =>
      simp only [outStep] at hs
      split at hs
      · cases hs
      rename_i d m rest ht
      split at hs
      swap
      · cases hs
      cases hs
      show (Function.update (β := fun _ => List (ℕ × PMessage)) _ g' rest g) <:+ _
      by_cases hg : g = g'
      · subst hg
        rw [Function.update_self, ht]
        exact List.suffix_cons _ _
      · rw [Function.update_of_ne hg]
    | take d =>
      simp only [outStep] at hs
      split at hs
      · cases hs
        exact List.suffix_rfl
      · cases hs
    | copy d =>
      simp only [outStep] at hs
      split at hs
      · cases hs
      · split at hs
        · cases hs
          exact List.suffix_rfl
        · cases hs
    | read d =>
      simp only [outStep] at hs
      split at hs
      · cases hs
      · cases hs
        exact List.suffix_rfl

theorem got_nil {N room : ℕ} {s s' : OutState} {evs : List OutEvent} {x : ℕ} (hr : OutRun N room s evs s') (he : .read x ∉ evs) : s'.got x = s.got x := by
  induction hr with
  | nil => rfl
  | snoc _ hs ih =>
    rw [← ih fun hm => he (List.mem_append_left _ hm)]
    have h4 : _ ≠ OutEvent.read x := fun e => he (List.mem_append_right _ (List.mem_singleton.2 e.symm))
    rename_i ev _ _
    cases ev with
    | broadcast g m =>
      simp only [outStep] at hs
      split at hs
      · cases hs; rfl
      · cases hs
    | send g d m =>
      simp only [outStep] at hs
      split at hs
      · cases hs; rfl
      · cases hs
    | put g' =>
      simp only [outStep] at hs
      split at hs
      · cases hs
      · split at hs
        · cases hs; rfl
        · cases hs
    | take d =>
      simp only [outStep] at hs
      split at hs
      · cases hs; rfl
      · cases hs
    | copy d =>
      simp only [outStep] at hs
      split at hs
      · cases hs
      · split at hs
        · cases hs; rfl
        · cases hs
    | read d =>
      simp only [outStep] at hs
      split at hs
      · cases hs
      · cases hs
        show Function.update _ d _ x = _
        rw [Function.update_of_ne]
        rintro rfl
        exact h4 rfl

/-- So many messages fit on the way to a peer that does not read. -/
theorem put_bound {N room : ℕ} {evs : List OutEvent} {s : OutState} (h : OutRun N room .init evs s) {x : ℕ} (hx : .read x ∉ evs) : (s.put x).length ≤ maxMessage + 1 + room / 4 := by
  obtain ⟨⟨tk, h1, h2, h3⟩, h4, h5⟩ := (OutInv.run h).conn x
  have hg : s.got x = [] := got_nil h hx
  rw [hg, List.nil_append] at h3
  have := congrArg List.length h1
  rw [List.length_map, List.length_append] at this
  omega

theorem meant_eq {N room n : ℕ} {evs : List OutEvent} {s : OutState} (hi : OutInv N room evs s) (hc : CallsBelow n evs) (x : ℕ) :
    ∑ g ∈ Finset.range n, (meant N evs g x).length = (s.put x).length + ∑ g ∈ Finset.range n, (ofConn (s.tasks g) x).length := by
  have hlt : ∀ e ∈ s.put x, e.1 < n := by
    intro e he
    by_contra hge
    have h0 := hi.task e.1 x
    have hm : e.2 ∈ meant N evs e.1 x := by
      rw [← h0]
      exact List.mem_append_left _ (List.mem_map.2 ⟨e, List.mem_filter.2 ⟨he, by simp⟩, rfl⟩)
    obtain ⟨ev, hev, h'⟩ := List.mem_filterMap.1 hm
    have := hc ev hev
    cases ev with
    | broadcast g' m' =>
      simp only at h' this
      split at h'
      · omega
      · cases h'
    | send g' d' m' =>
      simp only at h' this
      split at h'
      · omega
      · cases h'
    | _ => cases h'
  rw [length_le_sum _ n hlt, ← Finset.sum_add_distrib]
  refine Finset.sum_congr rfl fun g _ => ?_
  rw [← hi.task g x, List.length_append]

theorem ofConn_once {l : List (ℕ × PMessage)} (h : (l.map (·.1)).Nodup) (x : ℕ) : (ofConn l x).length ≤ 1 := by
  induction l with
  | nil => simp [ofConn]
  | cons e l ih =>
    obtain ⟨h1, h2⟩ := List.nodup_cons.1 h
    rw [ofConn_cons]
    by_cases he : e.1 = x
    · have : ofConn l x = [] := by
        simp only [ofConn, List.map_eq_nil_iff, List.filter_eq_nil_iff, decide_eq_true_eq]
        rintro a ha rfl
        exact h1 (List.mem_map.2 ⟨a, ha, he.symm⟩)
      simp [this, he]
    · simpa [he] using ih h2

end DyCAPS

import Verif.Model.PiSet
import Verif.Lemmas.VSS
import Verif.Lemmas.ProactHonest

/-!
# C135: storing a proof
-/

namespace DyCAPS

variable {G1 : Type}

theorem setEntry_some {src pi : Pi G1} {j : ℕ} {c : PiContent G1} (h1 : src.contents[j]? = some c) (h2 : j < pi.contents.length) :
    Pi.setEntry src pi j = .ok { pi with contents := pi.contents.set j c } := by
  simp only [Pi.setEntry, idx, h1, bind, Except.bind, if_pos h2]; rfl

theorem setEntries (dst src : Pi G1) (n : ℕ) (h1 : n < dst.contents.length) (h2 : n < src.contents.length) :
    ∃ r, (oneTo n).foldlM (Pi.setEntry src) { dst with gs := src.gs } = .ok r ∧ r.gs = src.gs ∧ r.contents.length = dst.contents.length ∧
      ∀ j, r.contents[j]? = if 1 ≤ j ∧ j ≤ n then src.contents[j]? else dst.contents[j]? := by
  induction n with
  | zero =>
    refine ⟨_, rfl, rfl, rfl, fun j => ?_⟩
    rw [if_neg (by omega)]
  | succ n ih =>
    obtain ⟨r, a1, a2, a3, a4⟩ := ih (by omega) (by omega)
    refine ⟨{ r with contents := r.contents.set (n + 1) src.contents[n + 1] }, ?_, a2, by simp [a3], fun j => ?_⟩
    · rw [oneTo_succ, List.foldlM_append, a1]
      simp only [bind, Except.bind, List.foldlM_cons, List.foldlM_nil]
      rw [setEntry_some (List.getElem?_eq_getElem h2) (by omega)]
      rfl
    · rw [List.getElem?_set]
      by_cases hj : n + 1 = j
      · subst hj
        rw [if_pos rfl, if_pos (by omega), if_pos (by omega), List.getElem?_eq_getElem h2]
      · rw [if_neg hj, a4 j]
        by_cases hc : 1 ≤ j ∧ j ≤ n
        · rw [if_pos hc, if_pos (by omega)]
        · rw [if_neg hc, if_neg (by omega)]

/-- **C135.** With room for `2F+2` entries on both sides the receiver ends with the public value of the source, its entries `1, …, 2F+1`, and otherwise its own. -/
theorem C135_stored (dst src : Pi G1) (F : ℕ) (h1 : 2 * F + 2 ≤ dst.contents.length) (h2 : 2 * F + 2 ≤ src.contents.length) :
    ∃ r, dst.set src F = .ok r ∧ r.gs = src.gs ∧ r.contents.length = dst.contents.length ∧
      ∀ j, r.contents[j]? = if 1 ≤ j ∧ j ≤ 2 * F + 1 then src.contents[j]? else dst.contents[j]? :=
  setEntries dst src (2 * F + 1) (by omega) (by omega)

/-- **C135.** With fewer entries on one side the call panics. -/
theorem C135_short (dst src : Pi G1) (F : ℕ) (h : dst.contents.length < 2 * F + 2 ∨ src.contents.length < 2 * F + 2) : dst.set src F = .error .panic := by
  have key : ∀ (l : List ℕ) (pi : Pi G1), pi.contents.length = dst.contents.length → (2 * F + 1) ∈ l → l.foldlM (Pi.setEntry src) pi = .error .panic := by
    intro l
    induction l with
    | nil => intro _ _ h; cases h
    | cons j l ih =>
      intro pi hpi hm
      rw [List.foldlM_cons]
      by_cases h1 : j < src.contents.length
      · by_cases h2 : j < pi.contents.length
        · rw [setEntry_some (List.getElem?_eq_getElem h1) h2]
          refine ih _ (by simp [hpi]) ?_
          rcases List.mem_cons.1 hm with rfl | hm
          · omega
          · exact hm
        · have : Pi.setEntry src pi j = .error .panic := by
            simp only [Pi.setEntry, idx, List.getElem?_eq_getElem h1, bind, Except.bind, if_neg h2]
          rw [this]; rfl
      · have : Pi.setEntry src pi j = .error .panic := by
          simp only [Pi.setEntry, idx, List.getElem?_eq_none (not_lt.1 h1), bind, Except.bind]
        rw [this]; rfl
  exact key _ _ rfl (mem_oneTo.2 ⟨by omega, le_refl _⟩)

variable [AddCommGroup G1]

/-- **C135.** A proof read from a message of the dealer is stored whole in a receiver as `Init` leaves it: nothing is left of the receiver and nothing of the proof is lost. (The model of
`VSSShareReceive` stores the proof so.) -/
theorem C135_from_message (codec : PointCodec G1) (m : Option PPi) (F : ℕ) (pi dst : Pi G1) (h : setFromVSSMessage codec m F = .ok pi) (hl : dst.contents.length = 2 * F + 2)
    (h0 : dst.contents[0]? = some (PiContent.zero 0)) : dst.set pi F = .ok pi := by
  obtain ⟨m', gs, cs, rfl, hcs⟩ : ∃ (m' : PPi) (gs : G1) (cs : List (PiContent G1)), pi = ⟨gs, PiContent.zero 0 :: cs⟩ ∧ (oneTo (2 * F + 1)).mapM (decodeContent codec m') = .ok cs := by
    cases m with
    | none => cases h
    | some m =>
      simp only [setFromVSSMessage, bind, Except.bind] at h
      cases hg : codec.decode! m.gs with
      | error e => rw [hg] at h; cases h
      | ok gs =>
        rw [hg] at h
        simp only at h
        cases hc : (oneTo (2 * F + 1)).mapM (decodeContent codec m) with
        | error e => rw [hc] at h; cases h
        | ok cs => rw [hc] at h; cases h; exact ⟨m, gs, cs, rfl, hc⟩
  have hlen : cs.length = 2 * F + 1 := by
    have key : ∀ (l : List ℕ) (cs : List (PiContent G1)), l.mapM (decodeContent codec m') = .ok cs → cs.length = l.length := by
      intro l
      induction l with
      | nil => intro cs h; cases h; rfl
      | cons a l ih =>
        intro cs h
        rw [List.mapM_cons] at h
        simp only [bind, Except.bind] at h
        cases h1 : decodeContent codec m' a with
        | error e => rw [h1] at h; cases h
        | ok c =>
          rw [h1] at h
          simp only at h
          cases h2 : l.mapM (decodeContent codec m') with
          | error e => rw [h2] at h; cases h
          | ok cs' => rw [h2] at h; cases h; rw [List.length_cons, List.length_cons, ih _ h2]
    rw [key _ _ hcs, oneTo_length]
  obtain ⟨r, a1, a2, a3, a4⟩ := C135_stored dst ⟨gs, PiContent.zero 0 :: cs⟩ F (by omega) (by simp [hlen])
  rw [a1]
  have : r.contents = PiContent.zero 0 :: cs := by
    refine List.ext_getElem? fun j => ?_
    rw [a4 j]
    by_cases hj : 1 ≤ j ∧ j ≤ 2 * F + 1
    · rw [if_pos hj]
    · rw [if_neg hj]
      by_cases hj0 : j = 0
      · subst hj0; rw [h0]; rfl
      · rw [List.getElem?_eq_none (by omega), List.getElem?_eq_none (by simp [hlen]; omega)]
  cases r
  simp only at this a2
  rw [this, a2]

/-- Four entries (`F = 1`): entry 0 of the receiver stays; three entries on one side are too few. -/
example :
    let e : ℕ → ℤ → PiContent ℤ := fun j x => ⟨j, x, x + 1, x + 2, x + 3⟩
    (⟨5, [e 0 70, e 9 71, e 9 72, e 9 73]⟩ : Pi ℤ).set ⟨8, [e 0 10, e 1 20, e 2 30, e 3 40]⟩ 1 = .ok ⟨8, [e 0 70, e 1 20, e 2 30, e 3 40]⟩ ∧
    (⟨5, [e 0 70, e 9 71, e 9 72]⟩ : Pi ℤ).set ⟨8, [e 0 10, e 1 20, e 2 30, e 3 40]⟩ 1 = .error .panic ∧ (Pi.init 1 : Pi ℤ).set ⟨8, [e 0 10, e 1 20, e 2 30]⟩ 1 = .error .panic := by
  refine ⟨rfl, rfl, rfl⟩

end DyCAPS

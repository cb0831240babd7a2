import Verif.Lemmas.MVBACrash

/-!
# A signature scheme to compute with, and a checker for executions

Used only for concrete executions. Four parties, one fault, the hash is the identity, a signature names what it signs.
-/

namespace DyCAPS
namespace Toy

def encN (n : ℕ) : Bytes := List.replicate n 1 ++ [0]

def decN : Bytes → Option (ℕ × Bytes)
  | [] => none
  | b :: t => if b = 0 then some (0, t) else (decN t).map fun p => (p.1 + 1, p.2)

theorem decN_encN (n : ℕ) (t : Bytes) : decN (encN n ++ t) = some (n, t) := by
  induction n with
  | zero => simp [encN, decN]
  | succ n ih =>
    have : encN (n + 1) ++ t = 1 :: (encN n ++ t) := by simp [encN, List.replicate_succ]
    rw [this, decN, if_neg (by decide), ih]
    rfl

def encM : SMsg → Bytes
  | .echo r j s h => 1 :: (encN r ++ (encN j ++ (encN s ++ h)))
  | .done r => 2 :: (encN r ++ [])
  | .no r => 3 :: (encN r ++ [])
  | .unlock r => 4 :: (encN r ++ [])

def decM : Bytes → Option SMsg
  | [] => none
  | b :: t =>
    match decN t with
    | none => none
    | some (r, t) =>
      if b = 1 then
        match decN t with
        | none => none
        | some (j, t) =>
          match decN t with
          | none => none
          | some (s, h) => some (.echo r j s h)
      else if b = 2 then some (.done r) else if b = 3 then some (.no r) else some (.unlock r)

theorem decM_encM (m : SMsg) : decM (encM m) = some m := by
  cases m <;> simp [encM, decM, decN_encN, -List.append_nil]

inductive Tok where
  | share (i : ℕ) (m : SMsg)
  | cert (m : SMsg)

def dec : Bytes → Option Tok
  | b :: t =>
    if b = 1 then
      match decN t with
      | none => none
      | some (i, t) => (decM t).map (.share i)
    else
      match t with
      | _ :: _ :: _ :: t => (decM t).map .cert
      | _ => none
  | [] => none

def coinByte (coin : ℕ → UInt8) : SMsg → UInt8
  | .done r => coin r
  | _ => 0

def sign (i : ℕ) (m : SMsg) : Bytes := 1 :: (encN i ++ encM m)

def full (coin : ℕ → UInt8) (m : SMsg) : Bytes := 0 :: 0 :: 0 :: coinByte coin m :: encM m

theorem dec_sign (i : ℕ) (m : SMsg) : dec (sign i m) = some (.share i m) := by simp [sign, dec, decN_encN, decM_encM]

theorem dec_full (coin : ℕ → UInt8) (m : SMsg) : dec (full coin m) = some (.cert m) := by simp [full, dec, decM_encM]

def share (m : SMsg) (b : Bytes) : Option ℕ :=
  match dec b with
  | some (.share i m') => if m' = m ∧ i < 4 then some i else none
  | _ => none

def cert (m : SMsg) (b : Bytes) : Bool :=
  match dec b with
  | some (.cert m') => decide (m' = m)
  | _ => false

def recover (coin : ℕ → UInt8) (m : SMsg) (sigs : List Bytes) : Option Bytes :=
  let ix := (sigs.take 3).map (share m)
  if 3 ≤ sigs.length ∧ none ∉ ix ∧ ix.Nodup then some (full coin m) else none

/-- Four parties, at most one corrupt; `coin r` is the last byte of the combined coin of round `r`. -/
def env (coin : ℕ → UInt8) : MEnv := ⟨4, 1, id, sign, share, cert, recover coin⟩

theorem schemeOk (coin : ℕ → UInt8) : SchemeOk (env coin) (full coin) where
  share_sign i hi m := by
    show share m (sign i m) = some i
    have hi' : i < 4 := hi
    simp [share, dec_sign, hi']
  cert_full m := by
    show cert m (full coin m) = true
    simp [cert, dec_full]
  recover_full m sigs L h1 h2 h3 := by
    show recover coin m sigs = _
    have h1 : sigs.map (share m) = L.map some := h1
    have h3 : 3 ≤ L.length := h3
    have hl : sigs.length = L.length := by simpa using congrArg List.length h1
    have e : (sigs.take 3).map (share m) = (L.take 3).map some := by rw [List.map_take, h1, List.map_take]
    unfold recover
    simp only
    rw [e, if_pos]
    refine ⟨by omega, (fun hc => by obtain ⟨x, -, hx⟩ := List.mem_map.1 hc; cases hx), ?_⟩
    exact (h2.sublist (List.take_sublist 3 L)).map (Option.some_injective _)

def genuineB (H : Finset ℕ) (signed : List (ℕ × SMsg)) (b : Bytes) : Bool :=
  match dec b with
  | none => true
  | some (.share i m) => decide (i ∉ H ∨ (i, m) ∈ signed)
  | some (.cert m) => decide (3 ≤ (signers 4 H signed m).card)

theorem genuineB_sound {coin : ℕ → UInt8} {H : Finset ℕ} {signed : List (ℕ × SMsg)} {b : Bytes} (h : genuineB H signed b = true) : Genuine (env coin) H signed b := by
  intro m
  constructor
  · intro i hi
    have hi : share m b = some i := hi
    unfold share at hi
    unfold genuineB at h
    split at hi
    · rename_i i' m' hd
      rw [hd] at h
      split at hi
      · rename_i hm
        cases hi
        have h := of_decide_eq_true h
        exact ⟨hm.2, fun hH => by rw [← hm.1]; exact h.resolve_left (fun h => h hH)⟩
      · cases hi
    · cases hi
  · intro hc
    have hc : cert m b = true := hc
    unfold cert at hc
    unfold genuineB at h
    split at hc
    · rename_i m' hd
      rw [hd] at h
      have e := of_decide_eq_true hc
      subst e
      have h : 3 ≤ (signers 4 H signed m').card := of_decide_eq_true h
      exact h
    · cases hc

def allowedB (H : Finset ℕ) (cfg : MNetCfg) (net : MNet) (i : ℕ) : MEvent → Bool
  | .recv s m => m.sigs.all (genuineB H net.signed) && (!cfg.auth || decide (s ∉ H) || decide ((s, m) ∈ net.sent)) && (!cfg.once || decide (s ∉ H) || decide ((i, s, m) ∉ net.delivered))
  | _ => true

theorem allowedB_sound {coin : ℕ → UInt8} {H : Finset ℕ} {cfg : MNetCfg} {net : MNet} {i : ℕ} {ev : MEvent} (h : allowedB H cfg net i ev = true) : MAllowed (env coin) H cfg net i ev := by
  cases ev with
  | recv s m =>
    simp only [allowedB, Bool.and_eq_true, Bool.or_eq_true, Bool.not_eq_true', decide_eq_true_eq, List.all_eq_true] at h
    obtain ⟨⟨a, b⟩, c⟩ := h
    refine ⟨fun x hx => genuineB_sound (a x hx), fun ha hs => ?_, fun ho hs => ?_⟩
    · rcases b with (b | b) | b
      · rw [ha] at b; cases b
      · exact absurd hs b
      · exact b
    · rcases c with (c | c) | c
      · rw [ho] at c; cases c
      · exact absurd hs c
      · exact c
  | _ => trivial

def stepB (coin : ℕ → UInt8) (H : Finset ℕ) (cfg : MNetCfg) (net : MNet) (e : ℕ × MEvent) : Option MNet :=
  if decide (e.1 ∈ H) && allowedB H cfg net e.1 e.2 then
    (net.at_ (env coin) e.1 e.2).map fun net' => { net' with delivered := net'.delivered ++ logDelivery e.1 e.2 }
  else none

def runB (coin : ℕ → UInt8) (H : Finset ℕ) (cfg : MNetCfg) : MNet → List (ℕ × MEvent) → Option MNet
  | net, [] => some net
  | net, e :: evs =>
    match stepB coin H cfg net e with
    | none => none
    | some net' => runB coin H cfg net' evs

theorem runB_sound {coin : ℕ → UInt8} {H : Finset ℕ} {cfg : MNetCfg} {net₀ : MNet} : ∀ (evs : List (ℕ × MEvent)) {evs₀ : List (ℕ × MEvent)} {net net' : MNet},
    MRun (env coin) H cfg net₀ evs₀ net → runB coin H cfg net evs = some net' → MRun (env coin) H cfg net₀ (evs₀ ++ evs) net'
  | [], evs₀, net, net', h, hr => by
    cases hr
    simpa using h
  | e :: evs, evs₀, net, net', h, hr => by
    unfold runB at hr
    split at hr
    · cases hr
    · rename_i net1 hs
      unfold stepB at hs
      split at hs
      · rename_i hc
        rw [Bool.and_eq_true] at hc
        obtain ⟨net2, h2, rfl⟩ := Option.map_eq_some_iff.1 hs
        have := runB_sound evs (h.snoc (of_decide_eq_true hc.1) (allowedB_sound hc.2) h2) hr
        simpa using this
      · cases hs

/-- A checked execution with a checked final state. -/
theorem exists_run {coin : ℕ → UInt8} {H : Finset ℕ} {cfg : MNetCfg} {net₀ : MNet} (evs : List (ℕ × MEvent)) (p : MNet → Bool)
    (h : (match runB coin H cfg net₀ evs with | none => false | some net => p net) = true) : ∃ net, MRun (env coin) H cfg net₀ evs net ∧ p net = true := by
  split at h
  · cases h
  · rename_i net hr
    exact ⟨net, by simpa using runB_sound evs (MRun.nil (env := env coin) (H := H) (cfg := cfg) (net₀ := net₀)) hr, h⟩

end Toy
end DyCAPS

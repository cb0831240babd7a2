import Mathlib.Data.ZMod.Basic
import Mathlib.NumberTheory.LucasPrimality
import Mathlib.Tactic.NormNum.Prime

/-!
# The scalar field

Model of the constants in `internal/bls/globals.go` (lines 12-72) and of `AsFr`
(`internal/bls/bignum_kilic.go`).  The modulus is proved prime here because the field instance that all
later definitions rest on needs it.
-/

namespace DyCAPS

/-- `ModulusStr`, internal/bls/globals.go:12. -/
def frModulus : ℕ :=
  52435875175126190479447740508185965837690552500527637822603658699938581184513

/-- `Scale2RootOfUnity`, internal/bls/globals.go:30-63, as the literals passed to `ToFr`. -/
def scale2RootTable : List ℕ := [
  1,
  52435875175126190479447740508185965837690552500527637822603658699938581184512,
  3465144826073652318776269530687742778270252468765361963008,
  23674694431658770659612952115660802947967373701506253797663184111817857449850,
  14788168760825820622209131888203028446852016562542525606630160374691593895118,
  36581797046584068049060372878520385032448812009597153775348195406694427778894,
  31519469946562159605140591558550197856588417350474800936898404023113662197331,
  47309214877430199588914062438791732591241783999377560080318349803002842391998,
  36007022166693598376559747923784822035233416720563672082740011604939309541707,
  4214636447306890335450803789410475782380792963881561516561680164772024173390,
  22781213702924172180523978385542388841346373992886390990881355510284839737428,
  49307615728544765012166121802278658070711169839041683575071795236746050763237,
  39033254847818212395286706435128746857159659164139250548781411570340225835782,
  32731401973776920074999878620293785439674386180695720638377027142500196583783,
  39072540533732477250409069030641316533649120504872707460480262653418090977761,
  22872204467218851938836547481240843888453165451755431061227190987689039608686,
  15076889834420168339092859836519192632846122361203618639585008852351569017005,
  15495926509001846844474268026226183818445427694968626800913907911890390421264,
  20439484849038267462774237595151440867617792718791690563928621375157525968123,
  37115000097562964541269718788523040559386243094666416358585267518228781043101,
  1755840822790712607783180844474754741366353396308200820563736496551326485835,
  32468834368094611004052562760214251466632493208153926274007662173556188291130,
  4859563557044021881916617240989566298388494151979623102977292742331120628579,
  52167942466760591552294394977846462646742207006759917080697723404762651336366,
  18596002123094854211120822350746157678791770803088570110573239418060655130524,
  734830308204920577628633053915970695663549910788964686411700880930222744862,
  4541622677469846713471916119560591929733417256448031920623614406126544048514,
  15932505959375582308231798849995567447410469395474322018100309999481287547373,
  37480612446576615530266821837655054090426372233228960378061628060638903214217,
  5660829372603820951332104046316074966592589311213397907344198301300676239643,
  20094891866007995289136270587723853997043774683345353712639419774914899074390,
  34070893824967080313820779135880760772780807222436853681508667398599787661631]

/-- Modular exponentiation by squaring on naturals (a computation device for the kernel, not a model of code). Nothing in /repo corresponds to it. -/
def powMod (m : ℕ) : ℕ → ℕ → ℕ → ℕ
  | 0, _, _ => 1 % m
  | f + 1, b, e =>
    if e % 2 = 0 then powMod m f (b * b % m) (e / 2)
    else b * powMod m f (b * b % m) (e / 2) % m

theorem powMod_eq (m : ℕ) : ∀ (f b e : ℕ), e < 2 ^ f → powMod m f b e = b ^ e % m
  | 0, b, e, h => by
    have : e = 0 := by simpa using h
    subst this; simp [powMod]
  | f + 1, b, e, h => by
    have h2 : e / 2 < 2 ^ f := by
      rw [pow_succ] at h; omega
    have ih := powMod_eq m f (b * b % m) (e / 2) h2
    unfold powMod
    rw [ih]
    have key : (b * b % m) ^ (e / 2) % m = b ^ (2 * (e / 2)) % m := by
      rw [← Nat.pow_mod, pow_mul, pow_two]
    split
    · rename_i h0
      rw [key]; congr 2; omega
    · rename_i h1
      rw [key, Nat.mul_mod, Nat.mod_mod, ← Nat.mul_mod, ← pow_succ']; congr 2; omega

/-- `r - 1 = 2^32·3·11·19·10177·125527·859267·906349²·2508409·2529403·52437899·254760293²`. -/
theorem frModulus_pred_factors : frModulus - 1 =
    2 ^ 32 * 3 * 11 * 19 * 10177 * 125527 * 859267 * 906349 ^ 2 * 2508409 * 2529403 * 52437899 *
      254760293 ^ 2 := by decide +kernel

theorem powMod_ne_one {m f b e : ℕ} (hm : 1 < m) (he : e < 2 ^ f) (h : powMod m f b e ≠ 1) :
    ((b : ZMod m)) ^ e ≠ 1 := by
  intro hc
  apply h
  rw [powMod_eq m f b e he]
  have : ((b ^ e : ℕ) : ZMod m) = ((1 : ℕ) : ZMod m) := by push_cast; exact hc
  rw [ZMod.natCast_eq_natCast_iff'] at this
  rw [this, Nat.mod_eq_of_lt hm]

theorem powMod_eq_one {m f b e : ℕ} (hm : 1 < m) (he : e < 2 ^ f) (h : powMod m f b e = 1) :
    ((b : ZMod m)) ^ e = 1 := by
  rw [powMod_eq m f b e he] at h
  have : ((b ^ e : ℕ) : ZMod m) = ((1 : ℕ) : ZMod m) := by
    rw [ZMod.natCast_eq_natCast_iff', h, Nat.mod_eq_of_lt hm]
  simpa using this

theorem dvd_pred_cases {q : ℕ} (hq : q.Prime) (h : q ∣ frModulus - 1) :
    q ∈ [2, 3, 11, 19, 10177, 125527, 859267, 906349, 2508409, 2529403, 52437899, 254760293] := by
  rw [frModulus_pred_factors] at h
  have aux : ∀ {p : ℕ}, p.Prime → q ∣ p → q = p := fun hp hd =>
    (Nat.prime_dvd_prime_iff_eq hq hp).1 hd
  have p1 : Nat.Prime 10177 := by norm_num
  have p2 : Nat.Prime 125527 := by norm_num
  have p3 : Nat.Prime 859267 := by norm_num
  have p4 : Nat.Prime 906349 := by norm_num
  have p5 : Nat.Prime 2508409 := by norm_num
  have p6 : Nat.Prime 2529403 := by norm_num
  have p7 : Nat.Prime 52437899 := by norm_num
  have p8 : Nat.Prime 254760293 := by norm_num
  rcases (Nat.Prime.dvd_mul hq).1 h with h | h
  rcases (Nat.Prime.dvd_mul hq).1 h with h | h
  rcases (Nat.Prime.dvd_mul hq).1 h with h | h
  rcases (Nat.Prime.dvd_mul hq).1 h with h | h
  rcases (Nat.Prime.dvd_mul hq).1 h with h | h
  rcases (Nat.Prime.dvd_mul hq).1 h with h | h
  rcases (Nat.Prime.dvd_mul hq).1 h with h | h
  rcases (Nat.Prime.dvd_mul hq).1 h with h | h
  rcases (Nat.Prime.dvd_mul hq).1 h with h | h
  rcases (Nat.Prime.dvd_mul hq).1 h with h | h
  rcases (Nat.Prime.dvd_mul hq).1 h with h | h
  · rw [aux Nat.prime_two (hq.dvd_of_dvd_pow h)]; decide +kernel
  · rw [aux Nat.prime_three h]; decide +kernel
  · rw [aux (by norm_num) h]; decide +kernel
  · rw [aux (by norm_num) h]; decide +kernel
  · rw [aux p1 h]; decide +kernel
  · rw [aux p2 h]; decide +kernel
  · rw [aux p3 h]; decide +kernel
  · rw [aux p4 (hq.dvd_of_dvd_pow h)]; decide +kernel
  · rw [aux p5 h]; decide +kernel
  · rw [aux p6 h]; decide +kernel
  · rw [aux p7 h]; decide +kernel
  · rw [aux p8 (hq.dvd_of_dvd_pow h)]; decide +kernel

theorem powMod_check : powMod frModulus 256 7 (frModulus - 1) = 1 ∧
    ∀ q ∈ [2, 3, 11, 19, 10177, 125527, 859267, 906349, 2508409, 2529403, 52437899, 254760293],
      powMod frModulus 256 7 ((frModulus - 1) / q) ≠ 1 := by decide +kernel

theorem one_lt_frModulus : 1 < frModulus := by decide +kernel

theorem frModulus_lt : frModulus < 2 ^ 256 := by decide +kernel

theorem frModulus_prime : frModulus.Prime := by
  refine lucas_primality frModulus ((7 : ℕ) : ZMod frModulus) ?_ ?_
  · exact powMod_eq_one one_lt_frModulus
      (lt_of_le_of_lt (Nat.sub_le _ _) frModulus_lt) powMod_check.1
  · intro q hq hd
    exact powMod_ne_one one_lt_frModulus
      (lt_of_le_of_lt ((Nat.div_le_self _ _).trans (Nat.sub_le _ _)) frModulus_lt)
      (powMod_check.2 q (dvd_pred_cases hq hd))

/-- `bls.Fr`: the scalars, an element is the residue that the library represents in Montgomery form. internal/bls/bignum_kilic.go:26. -/
abbrev Fr := ZMod frModulus

/-- For the field instance; no code of its own. -/
instance : Fact frModulus.Prime := ⟨frModulus_prime⟩

/-- For the field instance; no code of its own. -/
instance : NeZero frModulus := ⟨frModulus_prime.ne_zero⟩

/-- `AsFr(dst, i uint64)`, internal/bls/bignum_kilic.go:64-68. `i` is a `uint64`. -/
def asFr (i : UInt64) : Fr := (i.toNat : Fr)

/-- The element `Scale2RootOfUnity[k]`; `none` is Go's index-out-of-range panic. internal/bls/globals.go:30-72. -/
def scale2Root (k : ℕ) : Option Fr := (scale2RootTable[k]?).map (fun n : ℕ => (n : Fr))

end DyCAPS

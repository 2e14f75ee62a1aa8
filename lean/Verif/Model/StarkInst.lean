import Verif.Model.Stark
import Verif.Model.PcsInst
import Mathlib.FieldTheory.KummerExtension
import Mathlib.RingTheory.AdjoinRoot
import Mathlib.Tactic.ReduceModChar

/-!
The parameters of the STARK prover and verifier as the code base fills them (uni-stark/tests/fib_air.rs):
BabyBear, its extension of degree four, taptree commitments and the BLAKE3 challenger.
-/

namespace TapStark.Stark

open TapStark.Tap TapStark.Tcs TapStark.FS TapStark.Fri TapStark.Pcs Polynomial

/-! ### The extension field -/

/-- `X⁴ - 11`, the polynomial of `BinomialExtensionField<BabyBear, 4>` (p3-baby-bear `BinomiallyExtendable<4>`). -/
noncomputable def ext4Poly : BB[X] := X ^ 4 - C 11

theorem eleven_pow : (11 : BB) ^ 1006632960 ≠ 1 := by
  have : (11 : ZMod 2013265921) ^ 1006632960 = 2013265920 := by reduce_mod_char
  intro h
  have := this.symm.trans h
  revert this
  decide

theorem ext4Poly_irreducible : Irreducible ext4Poly := by
  have key : ∀ b : BB, b ^ 2 ≠ 11 ∧ b ^ 2 ≠ -11 := by
    intro b
    have h0 : b ≠ 0 → b ^ 2013265920 = 1 := fun h => ZMod.pow_card_sub_one_eq_one h
    have e : b ^ 2013265920 = (b ^ 2) ^ 1006632960 := by rw [← pow_mul]
    constructor
    · intro hb
      rw [e, hb] at h0
      exact eleven_pow (h0 (by rintro rfl; revert hb; decide +kernel))
    · intro hb
      rw [e, hb, Even.neg_pow (by decide +kernel)] at h0
      exact eleven_pow (h0 (by rintro rfl; revert hb; decide +kernel))
  have h2 : Irreducible (X ^ 2 - C (11 : BB)) :=
    X_pow_sub_C_irreducible_of_prime Nat.prime_two fun b => (key b).1
  refine X_pow_mul_sub_C_irreducible (n := 2) (m := 2) h2 ?_
  intro E _ _ x hx
  have hi : IsIntegral BB x := not_not.mp fun h => by
    simpa only [degree_zero, degree_X_pow_sub_C Nat.prime_two.pos, WithBot.natCast_ne_bot] using
      congr_arg degree (hx.symm.trans (dif_neg h))
  apply X_pow_sub_C_irreducible_of_prime Nat.prime_two
  intro b hb
  apply (key (Algebra.norm BB b)).2
  rw [← map_pow, hb, ← IntermediateField.adjoin.powerBasis_gen hi, Algebra.PowerBasis.norm_gen_eq_coeff_zero_minpoly]
  simp [IntermediateField.minpoly_gen, hx]

instance : Fact (Irreducible ext4Poly) := ⟨ext4Poly_irreducible⟩

/-- `BinomialExtensionField<BabyBear, 4>` (p3-field), as a quotient of the polynomial ring. -/
abbrev BB4 := AdjoinRoot ext4Poly

theorem ext4Poly_monic : ext4Poly.Monic := monic_X_pow_sub_C _ (by omega)

noncomputable instance : DecidableEq BB4 := Classical.decEq _

/-- `as_base_slice` (p3-field): the coefficients of the representative of degree below four. -/
noncomputable def asBase4 (x : BB4) : List BB :=
  (List.range 4).map fun e => (AdjoinRoot.modByMonicHom ext4Poly_monic x).coeff e

/-- `from_base_slice` (p3-field). -/
noncomputable def fromBase4 (l : List BB) : BB4 :=
  ∑ e ∈ Finset.range 4, AdjoinRoot.root ext4Poly ^ e * algebraMap BB BB4 (l.getD e 0)

/-- `D`, `as_base_slice`, `monomial` of the extension field (p3-field). -/
noncomputable def bb4Deg : ExtDeg BB BB4 := ⟨4, asBase4, fun e => AdjoinRoot.root ext4Poly ^ e⟩

/-- The same with BabyBear as its own extension. -/
def bbDeg : ExtDeg BB BB := ⟨1, fun x => [x], fun _ => 1⟩

/-- `AsU32Vec for BinomialExtensionField<BabyBear, 4>` (common/src/lib.rs:16-23): the canonical
representatives of the coefficients. -/
noncomputable def bb4Rep : FieldRep BB4 := ⟨4, fun x => (asBase4 x).map ZMod.val⟩

/-- `BfChallenger<BinomialExtensionField<BabyBear, 4>, U32, _, 16>` (challenger/mod.rs:95-348). -/
noncomputable def bb4Chall (perm : List U32 → List U32) : Chall (Chal U32) (List (Vector U32 8)) BB4 U32 where
  observe ch c := ch.observeNested 16 perm (c.map Vector.toList)
  sample ch := do
    let (vs, ch) ← ch.sample 16 perm 4
    some (fromBase4 (vs.map fun v => (fromPf v : BB)), ch)
  checkWitness ch bits w := FS.checkWitness perm 4 bits w ch
  sampleBits ch bits := FS.sampleBits perm 4 bits ch

/-! ### The configuration -/

section
variable [LinearOrder U256] {F : Type} [Field F] [DecidableEq F]

/-- `StarkConfig` with `TwoAdicFriPcs` over BabyBear, the taptree commitment schemes for BabyBear and for the
challenge field `F`, and a challenger (uni-stark/src/config.rs, uni-stark/tests/fib_air.rs:101-131).  31 is
BabyBear's `generator()`. -/
def deployed (scfg : Cfg) (th : TapHash (List Op) U256) (mgr mgrF : Manager) (fr : FieldRep F) (ext : Ext BB F)
    {Ch W : Type} (chall : Chall Ch (List (Vector U32 8)) F W) (cfg : Config) (deg : ExtDeg BB F) :
    Setup BB F Nat (List (Vector U32 8)) (List (Committed BB U256)) (Tcs.Proof U256) Nat
      (List (Committed F U256)) (Tcs.Proof U256) Ch W :=
  ⟨ext, bbGen, 27, 31, tcsInMmcs scfg th bbRep mgr cfg.numQueries, tcsMmcs scfg th fr mgrF cfg.numQueries,
    chall, cfg, deg⟩

end

/-! ### The Fibonacci AIR -/

/-- `FibonacciAir` (uni-stark/tests/fib_air.rs:29-57): columns left, right; public values the first row and
the last right value. -/
def fibAir (K : Type) : Air K :=
  ⟨2, [.zero (.mul .isFirstRow (.sub (.loc 0) (.pub 0))),
    .zero (.mul .isFirstRow (.sub (.loc 1) (.pub 1))),
    .zero (.mul .isTransition (.sub (.loc 1) (.nxt 0))),
    .zero (.mul .isTransition (.sub (.add (.loc 0) (.loc 1)) (.nxt 1))),
    .zero (.mul .isLastRow (.sub (.loc 1) (.pub 2)))]⟩

/-- `generate_trace_rows` (uni-stark/tests/fib_air.rs:59-79): `n` rows from `a, b`. -/
def fibTrace {K : Type} [Add K] : Nat → K → K → Pcs.Mat K
  | 0, _, _ => []
  | n + 1, a, b => [a, b] :: fibTrace n b (a + b)

end TapStark.Stark

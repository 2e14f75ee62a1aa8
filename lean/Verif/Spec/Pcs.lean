import Verif.Model.Pcs
import Verif.Spec.Fri
import Mathlib.Algebra.Polynomial.AlgebraMap

/-!
Specification side of the polynomial commitment scheme: what is assumed of the external crates and of
the commitment scheme underneath, and what an honest batch is.
-/

namespace TapStark.Pcs

open Polynomial TapStark.Fri

variable {K F : Type} [Field K] [Field F] [DecidableEq K] [DecidableEq F] [Algebra K F]
variable {SI CI DI PI : Type}

/-- The rows of the evaluations of the columns `ps` on `shift · H`, `H` of order `2^k`, in natural
order. -/
def evalRows (genV : Nat → K) (ps : List K[X]) (shift : K) (k : Nat) : Mat K :=
  (List.range (2 ^ k)).map fun i => ps.map fun p => p.eval (shift * genV k ^ i)

/-- The same in bit-reversed order. -/
def evalRowsRev (genV : Nat → K) (ps : List K[X]) (shift : K) (k : Nat) : Mat K :=
  (List.range (2 ^ k)).map fun i => ps.map fun p => p.eval (shift * genV k ^ revBits k i)

/-- The external crates compute what their documentation says: `coset_lde_batch` evaluates the
interpolating polynomials on a larger coset, `interpolate_coset` at a point outside the coset, for
subgroups up to the two-adicity `N`. -/
structure Ext.Correct (X : Ext K F) (genV : Nat → K) (N : Nat) : Prop where
  lde : ∀ (ps : List K[X]) (k added : Nat) (shift : K), k ≤ N → (∀ p ∈ ps, p.natDegree < 2 ^ k) →
    X.cosetLde (evalRows genV ps 1 k) added shift = evalRows genV ps shift (k + added)
  interp : ∀ (ps : List K[X]) (k : Nat) (shift : K) (z : F), k ≤ N → shift ≠ 0 →
    (∀ p ∈ ps, p.natDegree < 2 ^ k) → (∀ i, algebraMap K F (shift * genV k ^ i) ≠ z) →
    X.interpolate (evalRows genV ps shift k) shift z = some (ps.map fun p => aeval z p)

/-- The interpolation returns one value per column. -/
def Ext.Width (X : Ext K F) : Prop :=
  ∀ rows shift z ys, X.interpolate rows shift z = some ys → ys.length = Mat.width rows

/-- One batch: its prover data, its commitment, and its matrices with their domains and the points they
are opened at. -/
structure Round (K F CI DI : Type) where
  data : DI
  commit : CI
  entries : List (Mat K × Dom K × List F)

/-- What the prover is given for the batch. -/
def Round.prover (r : Round K F CI DI) : DI × List (List F) := (r.data, r.entries.map fun e => e.2.2)

/-- The matrices and the points, as `open` collects them. -/
def Round.mats (r : Round K F CI DI) : ProverRound K F :=
  (r.entries.map Prod.fst, r.entries.map fun e => e.2.2)

/-- What the verifier is given for the batch, with claimed values `v`. -/
def Round.verifier (r : Round K F CI DI) (v : List (List (List F))) : VerifierRound K F CI :=
  (r.commit, List.zipWith (fun e ys => (e.2.1, e.2.2.zip ys)) r.entries v)

/-- The log of the height of the committed matrix of an entry. -/
def entryHeight (b : Nat) (e : Mat K × Dom K × List F) : Nat := e.2.1.logN + b

/-- The commitment scheme opens `mats` under `data` and `commit`: for an index below the largest height
it returns from every matrix the row at the index scaled to the matrix's height, and accepts it. -/
def InMmcs.Opens (MI : InMmcs K SI CI DI PI) (Q : Nat) (data : DI) (commit : CI) (mats : List (Mat K)) :
    Prop :=
  MI.getMatrices data = some mats ∧
    ∀ top, (mats.map List.length).max? = some (2 ^ top) → ∀ q i, q < Q → i < 2 ^ top →
      ∃ π, MI.openBatch q i data =
          some (mats.map fun m => m.getD (i / (2 ^ top / m.length)) [], π) ∧
        MI.verifyBatch q (mats.map fun m => m.getD (i / (2 ^ top / m.length)) []) π commit = some true

/-- A batch whose matrices have the heights their domains announce, are rectangular, and can be opened. -/
structure Round.Ok (r : Round K F CI DI) (MI : InMmcs K SI CI DI PI) (Q b : Nat) : Prop where
  nonempty : r.entries ≠ []
  height : ∀ e ∈ r.entries, e.1.length = 2 ^ entryHeight b e
  rect : ∀ e ∈ r.entries, ∀ row ∈ e.1, row.length = e.1.width
  opens : MI.Opens Q r.data r.commit (r.entries.map Prod.fst)

/-- The columns of an entry are evaluations of polynomials of degree below the size of its domain on the
shifted larger subgroup, in bit-reversed order. -/
def IsLde (genV : Nat → K) (g : K) (b : Nat) (e : Mat K × Dom K × List F) (ps : List K[X]) : Prop :=
  e.1 = evalRowsRev genV ps g (entryHeight b e) ∧ ∀ p ∈ ps, p.natDegree < 2 ^ e.2.1.logN

end TapStark.Pcs

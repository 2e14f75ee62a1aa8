import Verif.Model.Winternitz
import Verif.Model.U31

/-!
The comparison of a multi-word commitment with its value, and the equivocation script.
-/

namespace TapStark

/-- `recover_message_euqal_to_commit_message` of `BitCommitment`, /repo/scripts/src/bit_comm/bit_comm.rs:107-124:
recover the signed words, push the committed words, last word first, and compare with the check for one word
(`u31_equalverify` is `OP_EQUALVERIFY`, /repo/scripts/src/lib.rs:52-56) or, for every other number of words, with the
check for the four coefficients of an extension field element. -/
def BitComm.recoverEqual (b : BitComm) : Option (List Op) := do
  some ((← b.checkAndRecover) ++ b.u32Values.reverse.map (fun v => Op.num v.toNat) ++
    (if b.u32Values.length = 1 then [.equalverify] else u31extEqualverify))

/-- `equivocation`, /repo/scripts/src/bit_comm/winternitz.rs:299-304: the body is `script! {}`. -/
def equivocation (_pubKey : List Elem) : List Op := []

/-- `public_key_script`, /repo/scripts/src/bit_comm/winternitz.rs:79-93: pushes the public key of one digit (indexing a
vector: `none` out of range). -/
def Winternitz.publicKeyScript (w : Winternitz) (i : Nat) : Option (List Op) := do
  some [.push (← w.pubKey[i]?)]

end TapStark

import Verif.Props.Words
import Verif.Props.Blake3
import Verif.Props.Winternitz
import Verif.Props.TapTree
import Verif.Props.Tcs
import Verif.Props.Challenger
import Verif.Props.Fri
import Verif.Props.FriInst
import Verif.Props.Pcs
import Verif.Props.PcsInst
import Verif.Props.Stark
import Verif.Props.StarkInst
import Verif.Props.U31
import Verif.Props.ScriptHelper
import Verif.Props.FieldOps
import Verif.Props.Express
import Verif.Props.Dsl
import Verif.Props.FriScript
import Verif.Props.ChallengerExpr
import Verif.Props.ScriptChallenges
import Verif.Props.ScriptQuotient
import Verif.Props.PcsScript
import Verif.Props.Unread
import Verif.Props.TraceScript
import Verif.Props.ScriptVerifier
import Verif.Props.WideBc
import Verif.Props.ScriptVerifierInst
import Verif.Spec.FriSound
import Verif.Proofs.FriSound
import Verif.Props.FriSound
import Verif.Spec.EmptyProof
import Verif.Props.EmptyProof
import Verif.Props.EmptyProofScript
import Verif.Props.Program
import Verif.Props.ManagerAssign
import Verif.Props.SubGroup
import Verif.Props.Limits
import Verif.Props.LimitLeaf
import Verif.Props.LimitInputs
import Verif.Spec.Room
import Verif.Spec.ProgramSize
import Verif.Spec.AirSize
import Verif.Proofs.Room
import Verif.Proofs.RoomOps
import Verif.Props.Room
import Verif.Props.RoomProgram
import Verif.Props.RoomTrace
import Verif.Spec.AirProgram
import Verif.Model.AirProgram
import Verif.Proofs.AirProgram
import Verif.Props.AirProgram
import Verif.Props.AirProgramVerifier
import Verif.Model.UniScripts
import Verif.Props.UniScripts
import Verif.Spec.ScriptSize
import Verif.Proofs.ScriptSize
import Verif.Proofs.ChallengeSize
import Verif.Props.ScriptSize
import Verif.Props.LeafSize
import Verif.Props.MultiComm
import Verif.Props.RunDsl
import Verif.Model.DegreeBits
import Verif.Props.DegreeBits
import Verif.Model.Symbolic
import Verif.Spec.Symbolic
import Verif.Props.Symbolic
import Verif.Model.PcsRelease
import Verif.Spec.PcsRelease
import Verif.Props.PcsRelease
import Verif.Model.OpId
import Verif.Props.OpId
import Verif.Props.TcsBatch
import Verif.Model.Secret
import Verif.Props.Secret
import Verif.Props.AltStore
import Verif.Model.VarOps
import Verif.Spec.VarOps
import Verif.Proofs.VarOps
import Verif.Props.VarOps
import Verif.Proofs.FriHalf
import Verif.Proofs.HonestRows
import Verif.Props.Claims
import Verif.Props.ClaimsScript
import Verif.Props.BothQuery
import Verif.Props.BothVerifiers
import Verif.Proofs.Curve
import Verif.Spec.OpenSound
import Verif.Props.OpenSound
import Verif.Spec.BatchSound
import Verif.Proofs.Batch
import Verif.Props.BatchSound
import Verif.Props.BatchBoth
import Verif.Spec.StarkSound
import Verif.Proofs.StarkSound
import Verif.Props.StarkSound
import Verif.Props.StarkSoundBoth
import Verif.Proofs.FriDescend
import Verif.Spec.TcsKeys
import Verif.Props.TcsKeys
import Verif.Props.SeparateWords
import Verif.Spec.Linked
import Verif.Props.Linked
import Verif.Spec.LinkedProof
import Verif.Props.LinkedProof
import Verif.Proofs.HonestLinked
import Verif.Props.LinkedHonest
import Verif.Model.Rerun
import Verif.Props.Rerun
import Verif.Props.FriOutcome
import Verif.Props.Lookup
import Verif.Props.Verdict
import Verif.Spec.QuotientRelaxed
import Verif.Proofs.QuotientTable
import Verif.Proofs.QuotientRoots
import Verif.Props.QuotientRelaxed
import Verif.Props.ManyChunks
import Verif.Spec.WrongTrace
import Verif.Props.WrongTrace
import Verif.Spec.ProverExact
import Verif.Props.ProverExact
import Verif.Props.OneRowScript
import Verif.Props.Malleable
import Verif.Props.MalleableScript
import Verif.Props.CasesWords
import Verif.Props.CasesTree
import Verif.Props.CasesScripts
import Verif.Props.CasesStark
import Verif.Props.ShortScript
import Verif.Props.AlterScript
import Verif.Props.LowerClaims
import Verif.Props.ClaimsOpening
import Verif.Props.AlterTrace
import Verif.Props.ClaimsExact

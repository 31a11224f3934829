import Verif.Spec
import Verif.Base.Permute
import Verif.Base.Sponge
import Verif.Base.Bn256
import Verif.Base.Bn256Eval
import Verif.Base.Cache
import Verif.Props.Native
import Verif.Props.Bn254
import Verif.Base.Grain
import Verif.Base.GrainField
import Verif.Base.Mds
import Verif.Base.MdsLemmas
import Verif.Props.Grain
import Verif.Halo2.Core
import Verif.Halo2.Lemmas
import Verif.Halo2.Layout
import Verif.Circuit.Chip
import Verif.Circuit.Septidon
import Verif.Circuit.SeptidonLemmas
import Verif.Circuit.SeptidonTrace
import Verif.Circuit.SeptidonOps
import Verif.Circuit.SeptidonRun
import Verif.Circuit.SeptidonSound
import Verif.Circuit.SeptidonBn
import Verif.Props.Septidon
import Verif.Circuit.Pow5
import Verif.Circuit.Pow5Lemmas
import Verif.Circuit.Pow5Sound
import Verif.Props.Pow5
import Verif.Circuit.Builder
import Verif.Props.Builder
import Verif.Circuit.Table
import Verif.Circuit.TableFill
import Verif.Circuit.TableAssign
import Verif.Circuit.TableLoad
import Verif.Circuit.TableView
import Verif.Circuit.TableTrace
import Verif.Circuit.TableSound
import Verif.Circuit.ChipBn
import Verif.Circuit.TableRun
import Verif.Circuit.TableHonest
import Verif.Circuit.TableComplete
import Verif.Circuit.TableAccept
import Verif.Circuit.TableShape
import Verif.Props.TableDemo
import Verif.Props.TableSound
import Verif.Circuit.TableDigest
import Verif.Props.TableLoad
import Verif.Props.TableApi
import Verif.Props.TableMisc
import Verif.Circuit.Gadget
import Verif.Circuit.GadgetSound
import Verif.Props.Gadget
import Verif.Base.Fields
import Verif.Props.Fields
import Verif.Base.GrainEval
import Verif.Base.Constants
import Verif.Props.Constants
import Verif.Base.PastaPrime
import Verif.Base.PastaConsts
import Verif.Base.Pasta
import Verif.Props.Pasta
import Verif.Base.Sqrt
import Verif.Props.Sqrt
import Verif.Props.GadgetSponge
import Verif.Circuit.Degree5
import Verif.Props.Degree
import Verif.Props.Collision
import Verif.Props.Degree5
import Verif.Props.Kat
import Verif.Props.Trails
import Verif.Props.TableUnique
import Verif.Props.Provable
import Verif.Props.TableCollision
import Verif.Circuit.TableExact
import Verif.Props.TableExact
import Verif.Props.TableSteer
import Verif.Base.Bn256Strings
import Verif.Base.Decimal
import Verif.Props.Decimal
import Verif.Props.Subspace
import Verif.Props.TablePlan
import Verif.Props.TableLookup
import Verif.Props.TableMany
import Verif.Props.AlgDegree
import Verif.Halo2.Mock
import Verif.Circuit.MockChip
import Verif.Circuit.MockTable
import Verif.Props.Mock
import Verif.Base.GrainPoly
import Verif.Base.GrainPeriod
import Verif.Props.GrainPeriod
import Verif.Circuit.TableReserve
import Verif.Props.TableReserve
import Verif.Circuit.Values
import Verif.Circuit.ValuesSim
import Verif.Props.Values
import Verif.Halo2.Threads
import Verif.Circuit.Threads
import Verif.Props.Threads
import Verif.Props.Differential
import Verif.Circuit.HashCircuit
import Verif.Circuit.HashCircuitRows
import Verif.Props.HashCircuit
import Verif.Halo2.Blinding
import Verif.Circuit.Blinding
import Verif.Props.Blinding
import Verif.Props.Steps
import Verif.Circuit.Reload
import Verif.Props.Reload
import Verif.Circuit.HashCircuitValues
import Verif.Props.Keygen
import Verif.Props.Universal
import Verif.Circuit.SeptidonTest
import Verif.Props.SeptidonTest
import Verif.Props.ZeroSum
import Verif.Props.IdealLemmas
import Verif.Props.Ideal
import Verif.Circuit.ChipCells
import Verif.Circuit.ChipExact
import Verif.Circuit.TableCells
import Verif.Props.Cells
import Verif.Props.LinearLemmas
import Verif.Props.Linear
import Verif.Halo2.Assembly
import Verif.Halo2.Argument
import Verif.Props.ArgumentLemmas
import Verif.Props.ArgumentCount
import Verif.Props.ArgumentRows
import Verif.Props.ArgumentSound
import Verif.Props.ArgumentKey
import Verif.Props.ArgumentComplete
import Verif.Props.ArgumentTable
import Verif.Props.ArgumentSame
import Verif.Props.ArgumentHost
import Verif.Props.TableMessage
import Verif.Props.ArgumentMessage
import Verif.Props.ArgumentHiding
import Verif.Props.ArgumentOracle
import Verif.Circuit.Environment
import Verif.Props.Environment
import Verif.Props.ArgumentGadget
import Verif.Props.ArgumentProves
import Verif.Props.ArgumentLookup
import Verif.Halo2.Opening
import Verif.Props.Opening
import Verif.Halo2.ArgumentKzg
import Verif.Props.ArgumentKzg
import Verif.Props.ArgumentKzgTable
import Verif.Halo2.Transcript
import Verif.Props.Transcript
import Verif.Props.ArgumentKzgOracle
import Verif.Props.ArgumentKzgOracleTable
import Verif.Props.IdealDigestLemmas
import Verif.Props.IdealGame
import Verif.Props.IdealDigest
import Verif.Props.ArgumentKzgHiding
import Verif.Props.IdealSimulateLemmas
import Verif.Props.IdealSimulateGame
import Verif.Props.IdealSimulate
import Verif.Props.IdealCapacity
import Verif.Props.TablePath
import Verif.Props.TableTrie
import Verif.Props.IdealTrie
import Verif.Props.TableUpdate
import Verif.Props.CodeHash
import Verif.Props.ConstantCollision
import Verif.Props.IdealConstant
import Verif.Props.ArgumentBytes
import Verif.Props.GadgetPath

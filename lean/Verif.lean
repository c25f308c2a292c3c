import Verif.Props.BigInt
import Verif.Props.Serialize
import Verif.Props.Montgomery
import Verif.Props.Inverse
import Verif.Props.Pow
import Verif.Props.SmallField
import Verif.Props.Packed
import Verif.Props.ExtField
import Verif.Props.Parallel
import Verif.Props.Group
import Verif.Props.Curve
import Verif.Props.MSM
import Verif.Props.Poly
import Verif.Props.FFT
import Verif.Props.BatchFFT
import Verif.Props.MixedRadix
import Verif.Props.Evals
import Verif.Props.Merkle
import Verif.Props.MMCS
import Verif.Props.Multilinear
import Verif.Props.Sumcheck
import Verif.Props.Lookup
import Verif.Props.Cycle
import Verif.Props.GrandProduct
import Verif.Props.LookupArgument
import Verif.Props.LogDerivative
import Verif.Props.Graph
import Verif.Props.Rational
import Verif.Props.Buffer
import Verif.Props.Challenger
import Verif.Props.Binary
import Verif.Props.Sponge
import Verif.Props.Poseidon
import Verif.Props.Poseidon2
import Verif.Props.Lfsr
import Verif.Props.Coset
import Verif.Props.Fri
import Verif.Props.TwoAdicFri
import Verif.Props.Kzg
import Verif.Props.Shplonk
import Verif.Props.SimpleFri
import Verif.Props.ByInverter
import Verif.Props.R1cs
import Verif.Props.Qap
import Verif.Props.Groth16
import Verif.Props.Pairing
import Verif.Props.Vanishing
import Verif.Props.CircuitPoly
import Verif.Props.Selector
import Verif.Props.LookupChunk
import Verif.Props.FloorPlan
import Verif.Props.Assembly
import Verif.Props.Halo2Protocol
import Verif.Props.Multivariate
import Verif.Props.Circle
import Verif.Props.SparseMatrix
import Verif.Props.Circom
import Verif.Props.CircomFile
import Verif.Props.Transcript
import Verif.Props.Halo2Complete
import Verif.Props.Random
import Verif.Props.Pedersen
import Verif.Props.Air
import Verif.Props.Config
import Verif.Props.Range
import Verif.Props.ExampleCircuits
import Verif.Props.ExampleShuffle
import Verif.Props.ExampleLookups
import Verif.Props.FieldSerial
import Verif.Props.Chunked
import Verif.Props.Deque
import Verif.Props.GpuDebug
import Verif.Props.GpuMul
import Verif.Props.ZkValue
import Verif.Props.Zipped
import Verif.Props.MaybeOwned

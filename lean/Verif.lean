import Verif.Primes
import Verif.Gadgets.Monad
import Verif.Gadgets.RangeCheck
import Verif.Gadgets.RangeCheckProofs
import Verif.Gadgets.Arith
import Verif.Gadgets.ArithProofs
import Verif.Gadgets.ArithProofs2
import Verif.Gadgets.Exp
import Verif.LogUp.Model
import Verif.LogUp.Proofs
import Verif.LogUp.Proofs2
import Verif.LogUp.Close
import Verif.Props.Gadgets
import Verif.Props.LogUp
import Verif.Props.Exp
import Verif.Tensor.Basic
import Verif.Gadgets.LinAlg
import Verif.Gadgets.Ops
import Verif.Gadgets.Replay
import Verif.Gadgets.TopK
import Verif.Props.LinAlg
import Verif.Props.TopK
import Verif.Props.Ops
import Verif.Props.Rescale
import Verif.IO.Bytes
import Verif.IO.Serde
import Verif.IO.Crc
import Verif.Props.Serde
import Verif.IO.Envelope
import Verif.IO.Bundle
import Verif.Props.Envelope
import Verif.Props.Bundle
import Verif.Runner.ProofConfig
import Verif.Props.ProofConfig
import Verif.Zkvm.Canonical
import Verif.Props.Canonical
import Verif.Quant.Bounds
import Verif.Quant.Sem
import Verif.Quant.BoundProofs
import Verif.Props.Bounds
import Verif.Field.M31
import Verif.Field.Goldilocks
import Verif.Field.GoldInv
import Verif.Props.Fields
import Verif.Spec.Tensor
import Verif.Tensor.Shape
import Verif.Tensor.ShapeProofs
import Verif.Props.Shapes
import Verif.Runner.Witness
import Verif.Runner.WitnessProofs
import Verif.Runner.VerifyExtract
import Verif.Props.Witness
import Verif.Crypto.Merkle
import Verif.Crypto.MerkleProofs
import Verif.Props.Merkle
import Verif.Spec.Mle
import Verif.Spec.Layered
import Verif.Gkr.Mle
import Verif.Gkr.MleProofs
import Verif.Gkr.Proto
import Verif.Gkr.Model
import Verif.Gkr.Sumcheck
import Verif.Gkr.Rounds
import Verif.Gkr.LayerAlg
import Verif.Gkr.LayerProto
import Verif.Gkr.Circuit
import Verif.Gkr.Snark
import Verif.Gkr.Generic
import Verif.Props.Mle
import Verif.Props.Gkr
import Verif.Gkr.Transcript
import Verif.Gkr.Binding
import Verif.Props.Transcript
import Verif.Spec.Circuit
import Verif.Compiler.Expr
import Verif.Compiler.ExprProofs
import Verif.Compiler.PoolProofs
import Verif.Compiler.Builder
import Verif.Compiler.BuilderInv
import Verif.Compiler.BuilderFresh
import Verif.Compiler.BuilderPush
import Verif.Compiler.BuilderStep
import Verif.Compiler.BuilderLower
import Verif.Compiler.BuilderRun
import Verif.Compiler.BuilderFinal
import Verif.Compiler.Fold
import Verif.Compiler.Root
import Verif.Compiler.ForgeExpr
import Verif.Compiler.Forge
import Verif.Compiler.ForgeRun
import Verif.Compiler.ForgeGt
import Verif.Compiler.ForgeGtRun
import Verif.Props.Compiler
import Verif.Spec.Layers
import Verif.Tensor.Layers
import Verif.Tensor.LayerLemmas
import Verif.Tensor.LayerNoPanic
import Verif.Tensor.TransposeProofs
import Verif.Tensor.SliceProofs
import Verif.Tensor.SliceTotal
import Verif.Tensor.SplitProofs
import Verif.Tensor.ConcatProofs
import Verif.Tensor.TileProofs
import Verif.Tensor.ExpandProofs
import Verif.Tensor.PadProofs
import Verif.Tensor.GatherProofs
import Verif.Tensor.GatherElementsProofs
import Verif.Tensor.ScatterProofs
import Verif.Tensor.SqueezeProofs
import Verif.Props.Layers
import Verif.Tensor.Conv
import Verif.Spec.Numeric
import Verif.Tensor.ConvProofs
import Verif.Tensor.ConvTop
import Verif.Props.Conv
import Verif.Gadgets.Mean
import Verif.Gadgets.MeanProofs
import Verif.Gadgets.MeanProofs2
import Verif.Tensor.Pool
import Verif.Tensor.PoolProofs
import Verif.Props.Pool
import Verif.Tensor.Reduce
import Verif.Tensor.ReduceProofs
import Verif.Props.Reduce
import Verif.Props.ReduceMean
import Verif.Spec.Elementwise
import Verif.Tensor.Elementwise
import Verif.Props.Elementwise
import Verif.Props.ElementwiseDiv
import Verif.Props.ElementwiseClip
import Verif.Props.ElementwiseLogic
import Verif.Props.FunctionRoot
import Verif.Props.FunctionSwish
import Verif.Props.FunctionPow
import Verif.Props.Trig
import Verif.Tensor.FunctionExp
import Verif.Props.FunctionExp
import Verif.Props.Gelu
import Verif.Spec.Lanes
import Verif.Tensor.Lanes
import Verif.Props.Lanes
import Verif.Tensor.Softmax
import Verif.Props.Softmax
import Verif.Tensor.LayerNorm
import Verif.Props.Blocks
import Verif.Props.LayerNorm
import Verif.Spec.MatMul
import Verif.Tensor.MatMulLayer
import Verif.Props.Almost
import Verif.Props.MatMulLayer
import Verif.Props.Gemm
import Verif.Spec.Graph
import Verif.Spec.Arith
import Verif.Graph.Fusion
import Verif.Graph.Assembly
import Verif.Graph.Arith
import Verif.Props.Fusion
import Verif.Props.Assembly
import Verif.Props.AssemblyComplete
import Verif.Props.AssemblyArith
import Verif.Props.BoundsDeep
import Verif.Spec.Ext
import Verif.Field.Ext
import Verif.Field.ExtProofs
import Verif.Field.ExtField
import Verif.Field.ExtAdd
import Verif.Props.FieldExt
import Verif.Spec.Fft
import Verif.Pcs.Fft
import Verif.Pcs.FftProofs
import Verif.Pcs.Basefold
import Verif.Pcs.BasefoldEnc
import Verif.Pcs.BasefoldTables
import Verif.Pcs.BasefoldLeaves
import Verif.Pcs.BasefoldRounds
import Verif.Pcs.BasefoldComplete
import Verif.Pcs.BasefoldTotal
import Verif.Pcs.BasefoldGold
import Verif.Props.Basefold
import Verif.Pcs.BasefoldBinding
import Verif.Props.BasefoldBinding
import Verif.Spec.BasefoldGame
import Verif.Pcs.BasefoldSoundAlg
import Verif.Pcs.BasefoldSoundStep
import Verif.Pcs.BasefoldSoundLink
import Verif.Pcs.BasefoldSound
import Verif.Props.BasefoldSound
import Verif.Pcs.Whir
import Verif.Pcs.WhirForge
import Verif.Pcs.WhirSound
import Verif.Pcs.WhirComplete
import Verif.Pcs.WhirGold
import Verif.Props.Whir
import Verif.Quant.Convert
import Verif.Props.Convert
import Verif.Spec.BatchNorm
import Verif.Tensor.BatchNorm
import Verif.Props.BatchNorm
import Verif.Spec.Flat
import Verif.Compiler.Final
import Verif.Compiler.FinalInv
import Verif.Compiler.FinalOps
import Verif.Compiler.FinalProofs
import Verif.Compiler.Heap
import Verif.Props.CompilerFinal
import Verif.Compiler.Combine
import Verif.Compiler.CombineProofs
import Verif.Compiler.CombineValid
import Verif.Compiler.Live
import Verif.Compiler.LiveProofs
import Verif.Compiler.LiveValid
import Verif.Compiler.Layering
import Verif.Compiler.LayeringProofs
import Verif.Compiler.LayeringEval
import Verif.Compiler.Dedup
import Verif.Compiler.DedupProofs
import Verif.Props.Layering
import Verif.Spec.Segments
import Verif.Spec.ConvTranspose
import Verif.Tensor.ConvTranspose
import Verif.Tensor.ConvTransposeProofs
import Verif.Props.ConvTranspose
import Verif.Spec.Resize
import Verif.Tensor.Resize
import Verif.Tensor.ResizeProofs
import Verif.Tensor.ResizeCell
import Verif.Tensor.ResizeLinear
import Verif.Props.Resize
import Verif.Remainder.Basic
import Verif.Remainder.Circuit
import Verif.Spec.Remainder
import Verif.Remainder.Sums
import Verif.Remainder.LayerValues
import Verif.Remainder.Sound
import Verif.Remainder.Steps
import Verif.Remainder.Whole
import Verif.Remainder.Support
import Verif.Remainder.Complete
import Verif.Remainder.CompleteWhole
import Verif.Remainder.Guarded
import Verif.Remainder.Accept
import Verif.Remainder.Free
import Verif.Remainder.Check
import Verif.Remainder.Images
import Verif.Props.Remainder
import Verif.Graph.Topo
import Verif.Spec.LayerOrder
import Verif.Props.LayerOrder
import Verif.Quant.Scale
import Verif.Props.Scale
import Verif.Tensor.ConstLayers
import Verif.Spec.ConstLayers
import Verif.Props.ConstLayers
import Verif.Spec.Nested
import Verif.Compiler.Export
import Verif.Compiler.ExportLemmas
import Verif.Props.Export
import Verif.Props.EndToEnd
import Verif.Spec.SameGates
import Verif.Compiler.Share
import Verif.Compiler.ShareLemmas
import Verif.Props.Sharing
import Verif.Props.EndToEndOpt
import Verif.Spec.Joined
import Verif.Compiler.UnionFind
import Verif.Props.UnionFind
import Verif.Tensor.Erf
import Verif.Props.Erf
import Verif.Spec.GridSample
import Verif.Tensor.GridSample
import Verif.Props.GridSample
import Verif.Tensor.TopKLayer
import Verif.Props.TopKLayer
import Verif.Gadgets.ChunkWidth
import Verif.Props.ChunkWidth
import Verif.Props.PowSound
import Verif.Pcs.ProductArgument
import Verif.Props.ProductArgument
import Verif.Pcs.MemCheck
import Verif.Props.MemCheck

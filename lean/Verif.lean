import Verif.Basic.Res
import Verif.Lzw.Props
import Verif.Lzw.Exact
import Verif.Lzw.Textbook
import Verif.Parallel.Props
import Verif.Alloc.Props
import Verif.Tensor.Props
import Verif.Tensor.Reject
import Verif.View.Props
import Verif.Gemm.Props
import Verif.Data.Bridge
import Verif.Data.Move
import Verif.Conv.Props
import Verif.Conv.TransAdj
import Verif.Conv.TransSize
import Verif.Pool.Max
import Verif.Pool.Sample
import Verif.Pool.Pad
import Verif.Pool.Reduce
import Verif.Ops.Ewp
import Verif.Ops.ScalarProps
import Verif.Graph.Shared
import Verif.Graph.Sessions
import Verif.Alias.Props
import Verif.Alias.Assign
import Verif.Optim.Descent
import Verif.Fit.Evaluate
import Verif.Fit.Batch
import Verif.Optim.Construct
import Verif.Dataset.Props
import Verif.Ids.Props
import Verif.Complex.Props
import Verif.Dropout.Props
import Verif.Norm.Model
import Verif.Norm.Props
import Verif.Softmax.Model
import Verif.Softmax.Props
import Verif.Serial.Model
import Verif.Serial.Props
import Verif.Compose.Model
import Verif.Compose.Props
import Verif.Compose.Freeze
import Verif.Concat.Model
import Verif.Concat.Props
import Verif.Alias.Factory
import Verif.Shapes.Model
import Verif.Shapes.Props
import Verif.Sliding.Model
import Verif.Sliding.Props
import Verif.Text.Model
import Verif.Text.Props
import Verif.Text.Number
import Verif.Text.NumberProps
import Verif.Text.Binary
import Verif.Text.Session
import Verif.Loss.Examples
import Verif.Loss.Keep
import Verif.Net.Examples
import Verif.Train.Model
import Verif.Train.Spec
import Verif.Train.Forward
import Verif.Train.Backward
import Verif.Train.Props
import Verif.Train.Frame
import Verif.Train.Net
import Verif.Train.Violated
import Verif.Train.Examples
import Verif.Stats.Model
import Verif.Stats.Props
import Verif.Random.Model
import Verif.Random.Props
import Verif.Act.Model
import Verif.Act.Props
import Verif.Act.Examples
import Verif.Descent.Spec
import Verif.Descent.Props
import Verif.Descent.Net
import Verif.Descent.Examples
import Verif.Descent.Linear
import Verif.Descent.LinearEx
import Verif.Branch.Model
import Verif.Branch.Spec
import Verif.Branch.Values
import Verif.Branch.Props
import Verif.Branch.Stale
import Verif.Branch.Violated
import Verif.Branch.Examples
import Verif.Runs.Model
import Verif.Runs.Spec
import Verif.Runs.Step
import Verif.Runs.Props
import Verif.Runs.Net
import Verif.Runs.Batch
import Verif.Runs.Overwrite
import Verif.Runs.Calls
import Verif.Runs.Evaluate
import Verif.Runs.Examples
import Verif.Decimal.Model
import Verif.Decimal.Spec
import Verif.Decimal.Props
import Verif.Vector.Model
import Verif.Vector.Spec
import Verif.Vector.Lemmas
import Verif.Vector.Props
import Verif.Vector.Main
import Verif.Step.Model
import Verif.Step.Spec
import Verif.Step.Props
import Verif.ShapeVec.Props
import Verif.Fp.Props
import Verif.Nan.Model
import Verif.Nan.Props
import Verif.Nan.Select
import Verif.Nan.Sums
import Verif.Stride.Model
import Verif.Stride.Props
import Verif.Stride.Reduce
import Verif.Stride.Strict
import Verif.Copies.Model
import Verif.Copies.Props
import Verif.Copies.Examples
import Verif.Regular.Spec
import Verif.Regular.Sgd
import Verif.Regular.Violated
import Verif.Regular.Fit
import Verif.Regular.Examples
import Verif.Cuda.Model
import Verif.Cuda.Spec
import Verif.Cuda.Lemmas
import Verif.Cuda.Props
import Verif.Cuda.Dispatch
import Verif.Cuda.Examples
import Verif.Fmt.Model
import Verif.Fmt.Spec
import Verif.Fmt.Subst
import Verif.Fmt.Values
import Verif.Fmt.Serial
import Verif.Fmt.Examples
import Verif.Calls.Model
import Verif.Calls.Spec
import Verif.Calls.Props
import Verif.Holder.Model
import Verif.Holder.Props
import Verif.Release.More
import Verif.Image.Scale
import Verif.Optim.Downhill
import Verif.Regular.Downhill
import Verif.Poison.Infinite
import Verif.Glob.Props
import Verif.Finite.Acts
import Verif.Fp.Network
import Verif.Fp.Acts
import Verif.Fp.Gradient
import Verif.Fp.Backprop
import Verif.Fp.BackActs
import Verif.Fp.Conv
import Verif.Fp.ConvSpec
import Verif.Fp.ConvBack
import Verif.Fp.ConvGrad
import Verif.Finite.Losses
import Verif.Finite.Bce
import Verif.Text.Print
import Verif.Random.Noise
import Verif.Fp.Optim
import Verif.Fp.Step
import Verif.Fp.SquaredLoss
import Verif.Fp.CrossLoss
import Verif.Fp.Pool
import Verif.Bar.Props

import Verif.Model.ArithInst
import Verif.Model.Association
import Verif.Model.Datasets
import Verif.Examples
import Verif.Props.Inference
import Verif.Props.Decision
import Verif.Props.Functions
import Verif.Props.State
import Verif.Props.Vector
import Verif.Props.Dynamics
import Verif.Props.Sort
import Verif.Props.Json
import Verif.Props.Join
import Verif.Props.Counts
import Verif.Props.Dataset
import Verif.Props.Names
import Verif.Props.Build
import Verif.Props.Estimator
import Verif.Props.Predict
import Verif.Props.Cmeans
import Verif.Props.RlCmeans
import Verif.Props.Rows
import Verif.Props.Discretize
import Verif.Model.Learn
import Verif.Props.Numeric
import Verif.Conformance
import Verif.Props.Measures
import Verif.Props.Concepts
import Verif.Lemmas.Live
import Verif.Props.Success
import Verif.Props.Influence
import Verif.Props.Monotone
import Verif.Lemmas.Lipschitz
import Verif.Props.Contract
import Verif.Props.Objective
import Verif.Lemmas.Rename
import Verif.Props.Rename
import Verif.Props.Reload
import Verif.Model.Frames
import Verif.Model.Plot
import Verif.Props.Tables
import Verif.Props.Plot
import Verif.Props.CmeansRun
import Verif.Props.Scores
import Verif.Props.RlRound
import Verif.Props.VecReturns
import Verif.Props.Settings
import Verif.Props.Accept
import Verif.Props.Predicts
import Verif.Props.LoadDataset
import Verif.Lemmas.Beside
import Verif.Props.Reading
import Verif.Props.Extend
import Verif.Props.Lines
import Verif.Lemmas.Restart
import Verif.Props.Refit
import Verif.Props.Reorder
import Verif.Props.Strategies
import Verif.Props.VecNet
import Verif.Props.VecChange
import Verif.Props.Calls
import Verif.Props.VecPredict
import Verif.Props.VecOrder
import Verif.Lemmas.Moves
import Verif.Props.Cells
import Verif.Model.Draw
import Verif.Props.Draw
import Verif.Lemmas.Returns
import Verif.Props.IterReturns
import Verif.Props.Opposite
import Verif.Props.Rearrange
import Verif.Lemmas.Floating
import Verif.Lemmas.Binary64
import Verif.Lemmas.Rounding
import Verif.Props.Floating
import Verif.Props.FloatingCases
import Verif.Props.Rounding
import Verif.Props.RoundingCases
import Verif.Model.Points
import Verif.Props.Points
import Verif.Props.PointsRl
import Verif.Props.PointsOne
import Verif.Props.JoinRun
import Verif.Props.JsonText
import Verif.Props.Cycles
import Verif.Props.Spread
import Verif.Props.Continue
import Verif.Props.Acyclic
import Verif.Props.Lump
import Verif.Props.PredictReal
import Verif.Props.Mutual
import Verif.Props.Energy
import Verif.Props.Rise
import Verif.Props.Even
import Verif.Props.Local
import Verif.Props.Recode
import Verif.Props.Rules
import Verif.Props.Options
import Verif.Props.Exclude

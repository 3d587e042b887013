import Verif.Props.Cost
import Verif.Props.Utils
import Verif.Props.Graph
import Verif.Props.Solver
import Verif.Props.RunScores
import Verif.Props.Score
import Verif.Props.Duplicates
import Verif.Props.Optimal
import Verif.Props.Load
import Verif.Props.Plan
import Verif.Props.Attach
import Verif.Props.Belts
import Verif.Props.Expand
import Verif.Props.Machines
import Verif.Props.Traverse
import Verif.Props.OverLimit
import Verif.Props.Save
import Verif.Props.Conclude
import Verif.Props.Run
import Verif.Props.Session
import Verif.Props.Fewest
import Verif.Props.Files
import Verif.Props.Deliver
import Verif.Props.Depth
import Verif.Props.DepthSolution
import Verif.Props.Descent
import Verif.Props.Delivered
import Verif.Props.Combinations
import Verif.Props.Merger
import Verif.Props.Pairing
import Verif.Props.Speeds
import Verif.Props.Greedy
import Verif.Props.Sim
import Verif.Props.Looping
import Verif.Props.MergerTwo
import Verif.Props.RandomMerger
import Verif.Props.Show
import Verif.Props.Lines
import Verif.Props.GreedyMerge
import Verif.Props.ChunkFiles
import Verif.Props.Colours
import Verif.Props.Trial
import Verif.Props.ScoreExact
import Verif.Props.Alike
import Verif.Props.Announced
import Verif.Props.Built
import Verif.Props.Petty
import Verif.Props.Label
import Verif.Props.Picture
import Verif.Props.FirstPicture
import Verif.Props.Canvas
import Verif.Props.Answered
import Verif.Props.DataText

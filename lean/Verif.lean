import Verif.Conformance.HeatSource
import Verif.Conformance.Deposition
import Verif.Conformance.ScanPath
import Verif.Conformance.Quaternion
import Verif.Conformance.Material
import Verif.Conformance.Timestamps
import Verif.Conformance.Validate
import Verif.Quaternion.Props
import Verif.ScanPath.LoadProps
import Verif.ScanPath.QueryProps
import Verif.ScanPath.PowerProps
import Verif.Deposition.ListProps
import Verif.Deposition.PathProps
import Verif.Deposition.Coverage
import Verif.Driver.Props
import Verif.Driver.ScanEnd
import Verif.Driver.Frames
import Verif.Driver.EnsembleDA
import Verif.Driver.Periods
import Verif.Ensemble.Split
import Verif.Ensemble.Params
import Verif.Refinement.Forest
import Verif.Refinement.Transfer
import Verif.Material.Phase
import Verif.Material.Tables
import Verif.Material.Heat
import Verif.Thermal.AddMaterial
import Verif.Thermal.AddMaterialProps
import Verif.Thermal.Physics
import Verif.Thermal.Assembly
import Verif.Thermal.AssemblyProps
import Verif.Thermal.Balance
import Verif.Thermal.Energy
import Verif.Thermal.MeltHistory
import Verif.Thermal.EnergySteps
import Verif.Mechanics.Plasticity
import Verif.Mechanics.Stiffness
import Verif.Mechanics.Cells
import Verif.Mechanics.Schedule
import Verif.DataAssim.Localization
import Verif.DataAssim.Covariance
import Verif.DataAssim.Update
import Verif.DataAssim.Gather
import Verif.ExpData.Timestamps
import Verif.ExpData.LogText
import Verif.ExpData.FrameFile
import Verif.ExpData.RayTracing
import Verif.Input.Tree
import Verif.Input.Boundary
import Verif.Input.Validate
import Verif.Input.Start
import Verif.Input.Required
import Verif.Input.Geometry
import Verif.HeatSource.Model
import Verif.HeatSource.Update
import Verif.HeatSource.Values
import Verif.HeatSource.ValueProps
import Verif.HeatSource.Power
import Verif.HeatSource.Boxes
import Verif.HeatSource.Cube
import Verif.Output.PostProcessor
import Verif.Output.Microstructure
import Verif.Output.MicroFiles
import Verif.Output.Timer
import Verif.Refinement.QuadTransfer
import Verif.Material.Fill
import Verif.Material.FillProps
import Verif.Material.FillMech
import Verif.Material.FillAccept
import Verif.Material.Update
import Verif.Material.CellState
import Verif.Thermal.Device
import Verif.HeatSource.Learn
import Verif.Thermal.Initial
import Verif.Mechanics.StressBalance
import Verif.Deposition.Inside
import Verif.Thermal.Convergence
import Verif.Thermal.ConvergenceMesh
import Verif.Thermal.ConvergenceOrder
import Verif.Thermal.Stability
import Verif.DataAssim.Pattern
import Verif.DataAssim.Noise
import Verif.Thermal.Stages
import Verif.Deposition.FiveAxis
import Verif.Deposition.TwoD
import Verif.Material.History
import Verif.Input.Rules
import Verif.Ensemble.Loop
import Verif.Text.Split
import Verif.ScanPath.Text
import Verif.Deposition.Text
import Verif.Driver.CheckpointFiles
import Verif.Thermal.Parallel
import Verif.Mechanics.Dissipation
import Verif.Float.Format
import Verif.Driver.Rounded
import Verif.Float.Phases
import Verif.Thermal.Superposition
import Verif.Float.Path
import Verif.Float.Deposition
import Verif.ScanPath.Rounded
import Verif.HeatSource.Motion
import Verif.Mechanics.History
import Verif.Driver.Growing
import Verif.Driver.Windows
import Verif.ScanPath.Waiting
import Verif.Material.Parallel
import Verif.Thermal.DeviceThreads
import Verif.Thermal.DeviceThreadsVmult
import Verif.Mechanics.MeshLoop
import Verif.Mechanics.MeshLoopSystem
import Verif.Thermal.HostThreads
import Verif.Thermal.HostThreadsVmult

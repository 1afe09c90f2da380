import Verif.Props.Registry
import Verif.Props.OutPath
import Verif.Props.Driver
import Verif.Props.Selection
import Verif.Props.DriverCount
import Verif.Props.DriverRun
import Verif.Props.Equation
import Verif.Props.Filter
import Verif.Props.Table
import Verif.Props.CreateMissing
import Verif.Props.Factories
import Verif.Props.Kinematics
import Verif.Props.CrossSection
import Verif.Props.CrossData
import Verif.Props.Lotz
import Verif.Props.LotzCorrected
import Verif.Props.Threshold
import Verif.Props.SimTest
import Verif.Props.Whole
import Verif.Props.DriverRate
import Verif.Props.ExpectedRate
import Verif.Props.Isotropy
import Verif.Model.Property
import Verif.Props.Property
import Verif.Model.Session
import Verif.Lemmas.Session
import Verif.Props.Session
import Verif.Props.SessionCalls
import Verif.Model.Example
import Verif.Props.Example
import Verif.Props.ExampleRate
import Verif.Model.Thermal
import Verif.Props.Thermal
import Verif.Model.Writer
import Verif.Props.Writer
import Verif.Model.Listing
import Verif.Props.Listing
import Verif.Model.Options
import Verif.Props.Options
import Verif.Model.Calculator
import Verif.Props.Calculator
import Verif.Model.Ops
import Verif.Lemmas.Ops
import Verif.Props.Ops
import Verif.Model.Radius
import Verif.Props.Radius
import Verif.Model.Models
import Verif.Lemmas.Models
import Verif.Props.Models
import Verif.Model.Float
import Verif.Lemmas.Float
import Verif.Lemmas.FloatDriver
import Verif.Props.FloatSelect
import Verif.Props.FloatRun
import Verif.Model.FloatKin
import Verif.Lemmas.FloatErr
import Verif.Lemmas.FloatKin
import Verif.Props.FloatThreshold
import Verif.Lemmas.FloatCollide
import Verif.Lemmas.FloatDirection
import Verif.Props.FloatCollide
import Verif.Props.FloatDrift
import Verif.Model.FloatCross
import Verif.Props.FloatCross
import Verif.Props.FloatSample
import Verif.Model.Write
import Verif.Props.Write
import Verif.Model.Monitor
import Verif.Lemmas.Monitor
import Verif.Props.Monitor
import Verif.Model.Simulation
import Verif.Props.Simulation
import Verif.Model.FloatLotz
import Verif.Props.FloatLotz
import Verif.Lemmas.Thermal
import Verif.Lemmas.ThermalDriver
import Verif.Lemmas.CrossMeasurable
import Verif.Props.Equilibrium
import Verif.Model.VHSInfo
import Verif.Props.ThermalRate
import Verif.Props.Transport
import Verif.Props.Heat
import Verif.Model.Reading
import Verif.Props.Reading
import Verif.Props.MassAction
import Verif.Model.LoadXml
import Verif.Props.LoadXml
import Verif.Props.Friction
import Verif.Model.XPath
import Verif.Props.XPath
import Verif.Model.TreeDB
import Verif.Props.TreeDB
import Verif.Model.TreeModel
import Verif.Props.TreeModel
import Verif.Model.PyProperty
import Verif.Props.PyProperty
import Verif.Props.TreeRuns
import Verif.Props.TreeFinish

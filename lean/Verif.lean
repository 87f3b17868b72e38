import Verif.Model.Keypath
import Verif.Model.Value
import Verif.Model.Chain
import Verif.Model.Collection
import Verif.Model.World
import Verif.Model.Link
import Verif.Model.Instance
import Verif.Model.Numbers
import Verif.Model.Strings
import Verif.Model.DateTime
import Verif.Model.EnumMod
import Verif.Model.OwnedList
import Verif.Model.OwnedDict
import Verif.Model.OwnedConv
import Verif.Model.Save
import Verif.Model.OGraph
import Verif.Model.CGraph
import Verif.Model.Conf
import Verif.Model.Methods
import Verif.Model.Annot
import Verif.Model.KeySet
import Verif.Model.Relation
import Verif.Model.SubPipe
import Verif.Model.Operator
import Verif.Model.UConf
import Verif.Props.Keypath
import Verif.Props.Chain
import Verif.Props.Collection
import Verif.Props.Demo
import Verif.Props.Sim
import Verif.Props.ValidateSim
import Verif.Props.Validate
import Verif.Props.ValidateMod
import Verif.Props.ValidateSpec
import Verif.Props.ValidateSound
import Verif.Props.ValidateComplete
import Verif.Props.ValidateCases
import Verif.Props.Numbers
import Verif.Props.Strings
import Verif.Props.Lists
import Verif.Props.DateTime
import Verif.Props.EnumMod
import Verif.Props.OwnedList
import Verif.Props.OwnedDict
import Verif.Props.OwnedConv
import Verif.Props.Save
import Verif.Props.OGraph
import Verif.Props.CGraph
import Verif.Props.Conf
import Verif.Props.Assign
import Verif.Props.Frame
import Verif.Props.InputFrame
import Verif.Props.Input
import Verif.Props.InputKeys
import Verif.Props.Construct
import Verif.Props.NewObj
import Verif.Props.JsonSim
import Verif.Props.Json
import Verif.Props.MessageKeys
import Verif.Props.Symmetry
import Verif.Props.SymLink
import Verif.Props.LocalKey
import Verif.Props.Annot
import Verif.Props.KeySet
import Verif.Props.RoundTrip
import Verif.Props.Relation
import Verif.Props.SubPipe
import Verif.Props.Permit
import Verif.Props.Operator
import Verif.Props.UConf
import Verif.Model.Marks
import Verif.Props.Marks
import Verif.Model.Regex
import Verif.Props.Regex
import Verif.Model.SaveMods
import Verif.Props.SaveMods
import Verif.Model.Convert
import Verif.Props.Convert
import Verif.Props.Generate
import Verif.Props.Locality
import Verif.Model.Include
import Verif.Props.Include
import Verif.Props.BuildSym
import Verif.Props.BuildKeys
import Verif.Props.Equality
import Verif.Props.ReadDate
import Verif.Props.Bounds
import Verif.Model.Nested
import Verif.Props.Nested
import Verif.Props.Blank
import Verif.Props.Hooks
import Verif.Props.Merge
import Verif.Props.Mode
import Verif.Props.TrackLinks
import Verif.Props.TrackInput
import Verif.Props.SubPipeMarks
import Verif.Props.Spelling
import Verif.Model.Partial
import Verif.Props.Partial
import Verif.Props.Saved
import Verif.Model.Calc
import Verif.Props.InputWalk
import Verif.Props.ReportNames
import Verif.Props.Calc
import Verif.Props.Unlink
import Verif.Props.Relink
import Verif.Model.Fmtd
import Verif.Props.Fmtd
import Verif.Model.Upload
import Verif.Props.Upload
import Verif.Props.PlainJson
import Verif.Props.Regroup
import Verif.Props.ManyLists
import Verif.Model.ObjEq
import Verif.Props.ObjEq
import Verif.Model.PrevId
import Verif.Props.PrevId
import Verif.Model.CrossFetch
import Verif.Props.CrossFetch
import Verif.Model.Encoder
import Verif.Props.Encoder
import Verif.Props.Repeat
import Verif.Props.AtOnce
import Verif.Props.PutBack
import Verif.Props.JsonOptions
import Verif.Model.Declare
import Verif.Props.Declare
import Verif.Model.Packages
import Verif.Props.Packages
import Verif.Props.SmallChecks

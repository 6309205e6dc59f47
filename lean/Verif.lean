import Verif.Model.Alloc
import Verif.Model.Basic
import Verif.Model.Bell
import Verif.Model.Block
import Verif.Model.Call
import Verif.Model.CcLib
import Verif.Model.Class
import Verif.Model.Cost
import Verif.Model.Errors
import Verif.Model.HashSet
import Verif.Model.ImportXml
import Verif.Model.Iterators
import Verif.Model.JsonText
import Verif.Model.Machine
import Verif.Model.MachineMusic
import Verif.Model.MachineVec
import Verif.Model.Mask
import Verif.Model.Method
import Verif.Model.MethodLib
import Verif.Model.Music
import Verif.Model.Parity
import Verif.Model.PlaceNot
import Verif.Model.Row
import Verif.Model.SameStageVec
import Verif.Model.SerdeJson
import Verif.Model.Stage
import Verif.Model.Suggestions
import Verif.Model.Text
import Verif.Model.Unchecked
import Verif.Model.Unwind
import Verif.Model.Utils
import Verif.Proofs.Basic
import Verif.Proofs.Block
import Verif.Proofs.CallGroup
import Verif.Proofs.CcLib
import Verif.Proofs.Class
import Verif.Proofs.ClassCycles
import Verif.Proofs.ClassMirror
import Verif.Proofs.ClassRun
import Verif.Proofs.ClassSymmetry
import Verif.Proofs.Cost
import Verif.Proofs.Crossings
import Verif.Proofs.Errors
import Verif.Proofs.Grandsire
import Verif.Proofs.HashSet
import Verif.Proofs.ImportXml
import Verif.Proofs.Iterators
import Verif.Proofs.JsonText
import Verif.Proofs.JsonWrite
import Verif.Proofs.Kent
import Verif.Proofs.Machine
import Verif.Proofs.MachineMusic
import Verif.Proofs.MachineVec
import Verif.Proofs.Mask
import Verif.Proofs.Method
import Verif.Proofs.MethodCourse
import Verif.Proofs.MethodLib
import Verif.Proofs.Music
import Verif.Proofs.MusicCount
import Verif.Proofs.MusicRuns
import Verif.Proofs.PlaceNot
import Verif.Proofs.PlaceNotParse
import Verif.Proofs.PlainChanges
import Verif.Proofs.PlainHunt
import Verif.Proofs.PnBlock
import Verif.Proofs.PnBlockErrors
import Verif.Proofs.PnBlockParse
import Verif.Proofs.RowAlgebra
import Verif.Proofs.RowBasic
import Verif.Proofs.RowBuild
import Verif.Proofs.RowSets
import Verif.Proofs.RunCount
import Verif.Proofs.SameStageVec
import Verif.Proofs.SerdeJson
import Verif.Proofs.SortRows
import Verif.Proofs.Stedman
import Verif.Proofs.Suggestions
import Verif.Proofs.Text
import Verif.Proofs.Unwind
import Verif.Proofs.Utils
import Verif.Props.Alloc
import Verif.Props.BellStage
import Verif.Props.Block
import Verif.Props.BobTouch
import Verif.Props.Call
import Verif.Props.CallGroup
import Verif.Props.CcLib
import Verif.Props.Class
import Verif.Props.ClassSymmetry
import Verif.Props.Cost
import Verif.Props.CountChanges
import Verif.Props.Cover
import Verif.Props.Crossings
import Verif.Props.Elsewhere
import Verif.Props.Errors
import Verif.Props.Grandsire
import Verif.Props.GrandsireGroup
import Verif.Props.GrandsireTouch
import Verif.Props.Groups
import Verif.Props.HashSet
import Verif.Props.ImportXml
import Verif.Props.Iterators
import Verif.Props.JsonText
import Verif.Props.Kent
import Verif.Props.Machine
import Verif.Props.MachineMusic
import Verif.Props.MachineVec
import Verif.Props.Mask
import Verif.Props.MemorySafety
import Verif.Props.Method
import Verif.Props.MethodLib
import Verif.Props.Music
import Verif.Props.MusicOf
import Verif.Props.OneCall
import Verif.Props.Panics
import Verif.Props.PanicsMethods
import Verif.Props.PanicsNotation
import Verif.Props.Parts
import Verif.Props.PlaceNot
import Verif.Props.PlainChanges
import Verif.Props.PlainHunt
import Verif.Props.PnBlock
import Verif.Props.PnParity
import Verif.Props.PnRecover
import Verif.Props.Queens
import Verif.Props.Reach
import Verif.Props.RowAccumulator
import Verif.Props.RowAlgebra
import Verif.Props.RowBuild
import Verif.Props.RowSets
import Verif.Props.RunCount
import Verif.Props.SafeRows
import Verif.Props.SameRows
import Verif.Props.SameStageVec
import Verif.Props.SerdeJson
import Verif.Props.Stedman
import Verif.Props.Suggestions
import Verif.Props.Symmetry
import Verif.Props.Tables
import Verif.Props.Text
import Verif.Props.Touch
import Verif.Props.Treble
import Verif.Props.Truth
import Verif.Props.Unchecked
import Verif.Props.Unwind
import Verif.Props.Utils
import Verif.Replay.Tests
import Verif.Spec
import Verif.Spec.Block
import Verif.Spec.CcLib
import Verif.Spec.Class
import Verif.Spec.Cover
import Verif.Spec.Crossings
import Verif.Spec.Grandsire
import Verif.Spec.HashSet
import Verif.Spec.ImportXml
import Verif.Spec.Iterators
import Verif.Spec.JsonText
import Verif.Spec.Kent
import Verif.Spec.Mask
import Verif.Spec.Method
import Verif.Spec.MethodLib
import Verif.Spec.Music
import Verif.Spec.MusicOf
import Verif.Spec.OneCall
import Verif.Spec.Panics
import Verif.Spec.Parts
import Verif.Spec.PlaceNot
import Verif.Spec.PlainHunt
import Verif.Spec.PnBlock
import Verif.Spec.PnParity
import Verif.Spec.SerdeJson
import Verif.Spec.Stedman
import Verif.Spec.Suggestions
import Verif.Spec.Touch
import Verif.Spec.Truth
import Verif.Spec.Unwind
import Verif.Spec.Vec

import Verif.Props.Demo
import Verif.Props.Consistency
import Verif.Props.Placing
import Verif.Props.Returns
import Verif.Props.Removing
import Verif.Props.Reorder
import Verif.Props.Positions
import Verif.Props.Defects
import Verif.Props.Lookup
import Verif.Props.Getter
import Verif.Props.GetChain
import Verif.Props.Protect
import Verif.Props.Frozen
import Verif.Proofs.Frozen
import Verif.Proofs.Frame
import Verif.Props.Owner
import Verif.Props.Deep
import Verif.Props.Paths
import Verif.Props.Atomic
import Verif.Props.Copy
import Verif.Props.Enumerate
import Verif.Props.Equal
import Verif.Props.Membership
import Verif.Props.Arith
import Verif.Props.MathSet
import Verif.Props.MathStr
import Verif.Props.Serialize
import Verif.Props.DumpFilter
import Verif.Props.Convert
import Verif.Props.Render
import Verif.Props.RenderText
import Verif.Props.Filters
import Verif.Props.DataModel
import Verif.Model.Links
import Verif.Spec.Links
import Verif.Proofs.Links
import Verif.Props.Links
import Verif.Spec.Values
import Verif.Proofs.Values
import Verif.Props.Values
import Verif.Model.DeepMut
import Verif.Spec.SortDeep
import Verif.Proofs.DeepMut
import Verif.Props.DeepMut
import Verif.Props.Objects
import Verif.Props.Repr
import Verif.Props.ExtendTree
import Verif.Props.ArgLists
import Verif.Props.SetList
import Verif.Props.SetVars
import Verif.Props.SetItems
import Verif.Props.ClearLocal
import Verif.Props.LoadDelete
import Verif.Props.Coupled
import Verif.Props.Size
import Verif.Props.Product
import Verif.Props.Levels
import Verif.Props.GetBy
import Verif.Props.Legacy
import Verif.Props.MathVars
import Verif.Props.MathOps
import Verif.Props.Builder
import Verif.Props.CombStr
import Verif.Model.Subtract
import Verif.Spec.Subtract
import Verif.Proofs.Subtract
import Verif.Proofs.Subtract2
import Verif.Props.Subtract
import Verif.Model.Dot
import Verif.Spec.Dot
import Verif.Props.Dot
import Verif.Model.LinksHeap
import Verif.Proofs.MakeLocal
import Verif.Proofs.MakeLocal2
import Verif.Proofs.Uncover
import Verif.Props.MakeLocal
import Verif.Spec.LoadLinks
import Verif.Proofs.LoadLinks
import Verif.Proofs.LoadLinks2
import Verif.Proofs.LoadLinks3
import Verif.Proofs.LoadLinks4
import Verif.Proofs.LoadLinks5
import Verif.Props.LoadLinks
import Verif.Props.NewLink
import Verif.Model.Files
import Verif.Props.Files
import Verif.Proofs.Grown
import Verif.Props.Grown
import Verif.Model.FindLink
import Verif.Spec.FindLink
import Verif.Proofs.FindLink
import Verif.Proofs.LoadAll
import Verif.Props.FindLink
import Verif.Model.FileLinks
import Verif.Spec.FileLinks
import Verif.Proofs.FileLinks
import Verif.Props.FileLinks
import Verif.Props.StoredLinks
import Verif.Model.About
import Verif.Spec.About
import Verif.Proofs.About
import Verif.Props.About
import Verif.Model.FlagsLive
import Verif.Props.FlagsLive
import Verif.Model.Wide
import Verif.Props.Wide
import Verif.Props.AnyText
import Verif.Props.Circle
import Verif.Props.Nested
import Verif.Props.Ready
import Verif.Props.OnlyLinks
import Verif.Props.Endless

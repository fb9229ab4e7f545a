import Verif.Props.Arith
import Verif.Props.LoadLinks
/-
Examples for `C50_link` and C74: histories with link roots.
-/
namespace ITree

/-- a history with link roots: `demo`, a link root 7 without children appended to the root 0, and a link root 8 with a child 9 -/
def linkDemo : Heap := run ms0 Heap.empty (demoCalls ++ [.newLink (.str "L") (.int 1) [] 0#6 none [.other 1], .append 0 (.item 7), .newLink (.str "M") .noValue [.val (.int 3)] Flags.readOnlyValue (some "f") [.other 1]])

theorem linkDemo_tidy : Tidy ms0 linkDemo := tidy_run _ .empty (by decide +kernel)
example : linkDemo.kids 0 = [1, 2, 3, 5, 7] ∧ linkDemo.isLinkRoot 7 = true ∧ linkDemo.kids 8 = [9] ∧ linkDemo.flags 8 = Flags.readOnlyValue ||| Flags.linkRoot ∧
    (linkDemo.node 8).link = some { file := some "f", path := [.other 1] } := by decide +kernel
/-- the children of a link root can be loaded after such a history: item 7 gets a mirror of item 4, the child of 1 -/
example : (loadLinks (fixedSource 1) false 201 linkDemo 7).2 = .ok true ∧ ((loadLinks (fixedSource 1) false 201 linkDemo 7).1.kids 7).length = 1 := by decide +kernel

end ITree

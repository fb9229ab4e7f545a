import Verif.Spec.Frame
/-
Specification: what `clear(local_only=True)` does to the list of children of a link root.  The call goes through the list from the front; each time it removes a child the next one moves up and is jumped over.
-/
namespace ITree

/-- The outcome on a list of children: the removed ones, those that stay, and whether the call is refused on the way.  `linked`, `ph` tell which children are linked or placeholders, `loaded` whether the link root is
loaded; `add` is true unless the call is at the first child or directly behind a linked child that was left alone: a linked child met when it is false is taken for a local one. -/
def swept (linked ph : Id → Bool) (loaded : Bool) : Bool → List Id → List Id × List Id × Bool
  | _, [] => ([], [], false)
  | add, x :: r =>
    if linked x && add then let q := swept linked ph loaded false r; (q.1, x :: q.2.1, q.2.2)
    else if ph x then let q := swept linked ph loaded true r; (q.1, x :: q.2.1, q.2.2)
    else if loaded && linked x then ([], x :: r, true)
    else match r with
      | [] => ([x], [], false)
      | y :: s => let q := swept linked ph loaded true s; (x :: q.1, y :: q.2.1, q.2.2)

/-- the elements at the positions 1, 3, 5, … -/
def everyOther : List α → List α
  | [] => []
  | [_] => []
  | _ :: y :: r => y :: everyOther r

end ITree

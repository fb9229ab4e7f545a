import Verif.Model.DeepMut
import Verif.Model.Size
import Verif.Model.ClearLocal
import Verif.Model.SetList
import Verif.Model.Repr
/-
Further calls that change or create objects, so that histories can contain them (itree_indepth.py 84-227, 461-557, itree_main.py 549-572, 1963-2042, 2183-2282, 3013-3054).
The functions themselves are modelled in the imported files.
-/
namespace ITree

/-- calls beyond those of `Call` that change items or make new ones; `n` are recursion limits (itree_indepth.py 84-557, itree_main.py 549-572, 2020-2042, 2183-2282) -/
inductive More where
  | deepReverse (n : Nat) (x : Id)
  | deepSort (key : Heap → Id → Int) (rev : Bool) (n : Nat) (x : Id)
  | deepRemove (p : Id) (t : Target) (ts : List Target)
  | deepUnsetTreeReadOnly (x : Id) (filter : Option (Id → Bool)) (hier : Bool)
  | deepUnsetValueReadOnly (x : Id) (filter : Option (Id → Bool)) (hier : Bool)
  | deepSetValueReadOnly (x : Id) (filter : Option (Id → Bool)) (hier : Bool)
  | forceCache (x : Id) (idx famKeys allKeys : Bool)
  | removeMany (p : Id) (l : List Id)
  | clearLocal (p : Id) (keepValue : Bool)
  | add (t u : Id)
  | mul (t : Id) (k : Int)
  | mulTree (t u : Id)
  | rmul (k : Int) (t : Id)
  | build (s : Shape)

/-- the state after the call; exceptions are caught by the caller (itree_indepth.py 84-557, itree_main.py 549-572, 2020-2042, 2183-2282).  `deepUnset…`/`deepSet…` with a filter that does not look at the flags that are changed; `build`
is the evaluation of nested constructor calls, as made by `eval(repr(t))` and by unpickling. -/
def more (h : Heap) : More → Heap
  | .deepReverse n x => (deepReverse n h x).1
  | .deepSort key rev n x => (deepSort key rev n h x).1
  | .deepRemove p t ts => (deepRemove h p t ts).1
  | .deepUnsetTreeReadOnly x f hier => (deepUnsetTreeReadOnly h x f hier).1
  | .deepUnsetValueReadOnly x f hier => (deepUnsetValueReadOnly h x f hier).1
  | .deepSetValueReadOnly x f hier => (deepSetValueReadOnly h x f hier).1
  | .forceCache x i f a => (forceCache h x i f a).1
  | .removeMany p l => (removeMany h p l).1
  | .clearLocal p k => (clearLocal h p k).1
  | .add t u => (addItems h t u).1
  | .mul t k => (mulItem h t k).1
  | .mulTree t u => (mulTree h t u).1
  | .rmul k t => (rmulItem h k t).1
  | .build s => (rebuild h s).1

/-- a call of either kind (itree_main.py 110-3393, itree_indepth.py 84-557) -/
inductive AnyCall where
  | call (c : Call)
  | more (m : More)

/-- a list of calls, one after the other; exceptions are caught by the caller (itree_main.py 110-3393, itree_indepth.py 84-557) -/
def runActs (ms : ModelSet) : Heap → List AnyCall → Heap
  | h, [] => h
  | h, .call c :: as => runActs ms (step ms h c).1 as
  | h, .more m :: as => runActs ms (more h m) as

end ITree

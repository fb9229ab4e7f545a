import Verif.Model.More
import Verif.Model.SetList
import Verif.Model.ArgLists
import Verif.Model.Subtract
import Verif.Model.LoadDelete
import Verif.Model.FileLinks
/-
Histories of all calls that write items: the calls of Model/Step and Model/More, assignment and `extend` of lists, subtraction, `make_local`, `load_links` (links into the own tree and to files) and loading texts and
files (itree_main.py 110-3393, itree_json_serialize.py 420-484).  Nothing is simplified beyond the models of the single calls.
-/
namespace ITree

open Json (Env)

/-- what the calls ask Python and the operating system for: the value models, `-` and `==` of values, packing, hashing, names and classes in texts, checksums (itree_main.py 2220-2265, itree_helpers.py 158-202,
itree_json_serialize.py 420-484) -/
structure Surround where
  ms : ModelSet
  ops : SubOps
  gz : Gzip
  sha : List Char → List Char
  names : Names
  env : Env
  crc : List Char → Nat

/-- a call of a history.  The calls that read files carry the disk of their moment, so that files may change in between; `k` limits the rounds of the deep iterator and the files that load each other. -/
inductive Wide where
  /-- any call of Model/Step and Model/More -/
  | act (a : AnyCall)
  /-- `p[tg] = [x1, x2, …]` (itree_main.py 1550-1559) -/
  | setList (p : Id) (tg : Target) (as : List Arg)
  /-- `p.extend([args, args, …])` (itree_main.py 1385-1425) -/
  | extendLists (p : Id) (ds : List Shape)
  /-- `t - u` (itree_main.py 2220-2265) -/
  | sub (t u : Id)
  /-- `x.make_local(copy_subtree)` (itree_main.py 3371-3393) -/
  | makeLocal (x : Id) (copySubtree : Bool)
  /-- `x.load_links(force, delete_invalid_items)` (itree_main.py 3226-3369) -/
  | loadLinks (d : Disk) (k : Nat) (x : Id) (force deleteInvalid : Bool)
  /-- `loads(text, check_hash, load_links=False)` (itree_json_serialize.py 420-454) -/
  | loads (text : List Char) (checkHash : Bool)
  /-- `load(path, check_hash, load_links=False)` (itree_json_serialize.py 456-484) -/
  | load (d : Disk) (path : String) (checkHash : Bool)

/-- the state after one call, failing or not; none if a `load_links` does not end within its number of rounds (itree_main.py 110-3393, itree_json_serialize.py 420-484) -/
def wideStep (W : Surround) (h : Heap) : Wide → Option Heap
  | .act a => some (runActs W.ms h [a])
  | .setList p tg as => some (setList h p tg as).1
  | .extendLists p ds => some (extendLists h p ds).1
  | .sub t u => some (subItem W.ops h t (h.tree u)).1
  | .makeLocal x s => some (makeLocal h x s).1
  | .loadLinks d k x force del =>
    let env := linkEnv (diskEnv W.gz W.sha W.names W.env W.crc d k)
    (if del then callLoadLinksDel env force 201 k h x else callLoadLinks env force 201 k h x).map Prod.fst
  | .loads text c => some (loadsText heapBuilder W.sha W.names W.env c h text).1
  | .load d path c => some (loadFile heapBuilder W.gz W.sha W.names W.env c h d path).1

/-- the state after a history (itree_main.py 110-3393, itree_json_serialize.py 420-484) -/
def runWide (W : Surround) : Heap → List Wide → Option Heap
  | h, [] => some h
  | h, a :: as =>
    match wideStep W h a with
    | none => none
    | some h' => runWide W h' as

end ITree

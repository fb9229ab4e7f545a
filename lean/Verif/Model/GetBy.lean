import Verif.Model.Getter
/-
The specific getters `get.by_idx_list`, `get.by_tag_idx_slice`, `get.by_tag_idx_list`, `get.by_tag`, `get.by_tags` (itree_getitem.py 625-929), all without default (`_raise_exception` raises the
exception it gets, 977-978).
-/
namespace ITree

/-- `l[i]` with its IndexError (itree_getitem.py 625-677) -/
def getOr (l : List Id) (i : Int) : Except Err Id := match pyGet l i with | some c => .ok c | none => .error .index

/-- the children a list of indexes selects; `none` is Ellipsis (itree_getitem.py 654-657, 800-803) -/
def pickAll (l : List Id) : Option (List Int) → Except Err (List Id)
  | none => .ok l
  | some il => il.mapM (getOr l)

/-- one further level of `by_idx_list` (itree_getitem.py 659-670); `none` is Ellipsis -/
def idxListLevel (h : Heap) (r : List Id) : Option (List Int) → Except Err (List Id)
  | none => .ok (r.flatMap h.kids)
  | some il => (r.flatMap fun q => (il.filter fun i => decide (i < ((h.kids q).length : Int))).map fun i => (q, i)).mapM fun e => getOr (h.kids e.1) e.2

/-- the loop over the path of `by_idx_list` (itree_getitem.py 659-671) -/
def idxListLoop (h : Heap) : List Id → List (Option (List Int)) → Except Err (List Id)
  | r, [] => .ok r
  | r, il :: ils => match idxListLevel h r il with
    | .error e => .error e
    | .ok r2 => if r2 = [] then .error .key else idxListLoop h r2 ils

/-- `get.by_idx_list(idx_list, *idx_list_path)` (itree_getitem.py 625-677); `none` is Ellipsis -/
def byIdxList (h : Heap) (p : Id) (first : Option (List Int)) (path : List (Option (List Int))) : Except Err (List Id) :=
  if h.kids p = [] then .error .index else
  match pickAll (h.kids p) first with
  | .error e => .error e
  | .ok r => idxListLoop h r path

/-- `self._getitem_fam(tag)` of the getter: AttributeError when the item never had children, KeyError for an unknown tag (itree_getitem.py 771-929) -/
def getFam (h : Heap) (p : Id) (t : Tag) : Except Err (List Id) :=
  match h.boundFams p with
  | none => .error .attribute
  | some F => match F.get? t with | none => .error .key | some fam => .ok fam

/-- the loops over a non-empty path of `by_tag_idx_slice`, `by_tag_idx_list`, `by_tag`, `by_tags` (itree_getitem.py 751-765, 804-818, 850-859, 910-923): the first item asked for `_contains_fam` raises
AttributeError, since items have no such method; without any item the path has no match. `asks`: is any item asked? -/
def famPath (asks : Bool) : Except Err (List Id) := if asks then .error .attribute else .error .key

/-- `get.by_tag_idx_slice((tag, slice), *path)` (itree_getitem.py 723-769); only whether there is a path matters -/
def byTagIdxSlice (h : Heap) (p : Id) (t : Tag) (s : PySlice) (hasPath : Bool) : Except Err (List Id) :=
  match getFam h p t with
  | .error e => .error e
  | .ok fam => match pySlice fam s with
    | none => .error .value
    | some r => if hasPath then famPath (r ≠ []) else if r = [] then .error .key else .ok r

/-- `get.by_tag_idx_list((tag, idx_list), *path)` (itree_getitem.py 771-822); `none` is Ellipsis -/
def byTagIdxList (h : Heap) (p : Id) (t : Tag) (il : Option (List Int)) (hasPath : Bool) : Except Err (List Id) :=
  match getFam h p t with
  | .error e => .error e
  | .ok fam => match pickAll fam il with
    | .error e => .error e
    | .ok r => if hasPath then famPath (r ≠ []) else .ok r

/-- `get.by_tag(tag, *path)` (itree_getitem.py 824-868): AttributeError becomes KeyError -/
def byTag (h : Heap) (p : Id) (t : Tag) (hasPath : Bool) : Except Err (List Id) :=
  match getFam h p t with
  | .error _ => .error .key
  | .ok fam => if hasPath then (match famPath (fam ≠ []) with | .error _ => .error .key | .ok r => .ok r) else .ok fam

/-- `get.by_tags(tags, *path)` (itree_getitem.py 870-929) for a list of tags; `path`: for every level the number of tags given -/
def byTags (h : Heap) (p : Id) (ts : List Tag) (path : List Nat) : Except Err (List Id) :=
  if h.kids p = [] then .error .key else
  match ts.mapM (getFam h p) with
  | .error e => .error e
  | .ok fs => if path = [] then .ok fs.flatten else famPath (fs.flatten ≠ [] ∧ ∃ n ∈ path, n ≠ 0)

end ITree

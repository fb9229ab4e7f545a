import Verif.Model.CopyLoop
/-
Value objects with identity: `copy()`, `deepcopy()`, `copy_keep_value()` and what becomes of the values.

In this file the value of an item is a reference `Val.obj a` to a cell of an object store (or a constant that cannot change).
-/
namespace ITree

/-- kinds of value objects: constants (int, str, None, …), tuples, lists, dicts, instances of user classes (hashable by identity, attributes
can be assigned), value models (`iTValueModel` defines `__eq__` without `__hash__`, itree_data.py 51-233) -/
inductive Kind where
  | atom | tuple | list | dict | inst | model
  deriving DecidableEq, Repr, Inhabited

/-- `callable(value.__hash__)` (itree_private.py 466, 483, 493, 497): lists, dicts and classes with `__eq__` only have `__hash__ = None` -/
def Kind.hashable : Kind → Bool
  | .atom | .tuple | .inst => true
  | .list | .dict | .model => false

/-- objects of this kind can be changed in place (no code: Python's classes) -/
def Kind.mutable : Kind → Bool
  | .atom | .tuple => false
  | .list | .dict | .inst | .model => true

/-- An object: its kind, the constant it holds (atoms) and the objects it refers to: list or tuple elements, dict values and keys alternating,
attribute values. (no code: Python's objects) -/
structure Cell where
  kind : Kind
  scalar : Val := .none
  ptrs : List Nat := []
  deriving Inhabited

/-- all value objects of the program; those below `next` exist (no code: Python's objects) -/
structure Store where
  cell : Nat → Cell
  next : Nat

namespace Store
/-- a new object (Python itself; used in itree_private.py 453-537) -/
def alloc (s : Store) (c : Cell) : Store × Nat := (⟨fun j => if j = s.next then c else s.cell j, s.next + 1⟩, s.next)
/-- the objects object `a` refers to are now `l` (`l[:] = …`, `d.update`, `o.x = …`) (no code: what a user does with a value object) -/
def put (s : Store) (a : Nat) (l : List Nat) : Store :=
  { s with cell := fun j => if j = a then { s.cell a with ptrs := l } else s.cell j }
end Store

/-- `copy.copy(x)` of the standard library: constants and tuples are returned as they are, everything else is a new object of the same kind with the same references (used in itree_private.py 453-500) -/
def shallow (s : Store) (a : Nat) : Store × Nat :=
  match (s.cell a).kind with
  | .atom | .tuple => (s, a)
  | _ => s.alloc (s.cell a)

/-- state of a `copy.deepcopy` call: the store and the dict `memo` (used in itree_private.py 516-537) -/
structure DS where
  store : Store
  memo : List (Nat × Nat) := []

/-- one copy after the other, same memo (`for a in x: append(deepcopy(a, memo))` in `_deepcopy_list` of the standard library) (used in itree_private.py 516-537) -/
def memoList (f : DS → Nat → Except Err (DS × Nat)) : DS → List Nat → Except Err (DS × List Nat)
  | s, [] => .ok (s, [])
  | s, a :: l => do
    let r ← f s a
    let q ← memoList f r.1 l
    return (q.1, r.2 :: q.2)

/-- `copy.deepcopy(x, memo)` of the standard library (`deepcopy`, `_deepcopy_list`, `_deepcopy_dict`, `_deepcopy_tuple`, `_reconstruct` in copy.py), called in
itree_private.py 516-537; recursion limit `n`.
Simplified: the new list is filled at the end and not element by element (nothing reads it in between). -/
def memoCopy : Nat → DS → Nat → Except Err (DS × Nat)
  | 0, _, _ => .error .recursion
  | n + 1, s, a =>
    match s.memo.lookup a with
    | some b => .ok (s, b)
    | none => match (s.store.cell a).kind with
      | .atom => .ok (s, a)
      | .tuple => do
        let r ← memoList (memoCopy n) s (s.store.cell a).ptrs
        match r.1.memo.lookup a with
        | some b => return (r.1, b)
        | none =>
          if r.2 = (s.store.cell a).ptrs then return (r.1, a) else
          let q := r.1.store.alloc { s.store.cell a with ptrs := r.2 }
          return (⟨q.1, (a, q.2) :: r.1.memo⟩, q.2)
      | _ => do
        let q := s.store.alloc { s.store.cell a with ptrs := [] }
        let r ← memoList (memoCopy n) ⟨q.1, (a, q.2) :: s.memo⟩ (s.store.cell a).ptrs
        return (⟨r.1.store.put q.2 r.2, r.1.memo⟩, q.2)

/-- the three ways of copying (itree_main.py 2284-2350) -/
inductive CopyMode where
  | keep | copy | deep (limit : Nat)

/-- the value part of `_get_args_skip_subtree`, `_get_copy_args`, `_get_deepcopy_args` (itree_private.py 453-537) -/
def copyValue (m : CopyMode) (s : Store) (v : Val) : Except Err (Store × Val) :=
  match v with
  | .obj a => match m with
    | .keep => .ok (s, .obj a)
    | .copy => if (s.cell a).kind.hashable then .ok (s, .obj a) else let r := shallow s a; .ok (r.1, .obj r.2)
    | .deep n => do let r ← memoCopy n ⟨s, []⟩ a; return (r.1.store, .obj r.2)
  | v => .ok (s, v)

/-- state of the copy loop together with the value objects (itree_private.py 556-591) -/
structure CopyStV where
  tree : CopySt
  store : Store

/-- One round of the loops itree_private.py 578-592, as `copyLoopStep`, with the value argument made by `copyValue`. -/
def copyLoopStepV (m : CopyMode) (s : CopyStV) : GStep CopyStV Unit :=
  match s.tree.its with
  | [] => .done
  | .it [] :: st => .more [] ⟨{ s.tree with its := st }, s.store⟩
  | .none :: st => match s.tree.items with
    | [] => .fail .index
    | _ :: items => .more [] ⟨{ s.tree with items := items, its := st }, s.store⟩
  | .it (x :: xs) :: st => match s.tree.items with
    | [] => .fail .index
    | p :: items => match copyValue m s.store (s.tree.heap.node x).value with
      | .error e => .fail e
      | .ok (store, v) =>
        let r := s.tree.heap.alloc { copyNode (s.tree.heap.snap 0 x) with value := v }
        let h := appendItem r.1 p r.2
        if s.tree.heap.kids x = [] then .more [] ⟨⟨h, p :: items, .it xs :: st⟩, store⟩
        else .more [] ⟨⟨h, r.2 :: p :: items, .it (s.tree.heap.kids x) :: .none :: .it xs :: st⟩, store⟩

/-- `_iter_copy(itree_item, get_copy_args)` (itree_private.py 556-593) with value objects; at most `n` rounds -/
def iterCopyV (m : CopyMode) (n : Nat) (h : Heap) (s : Store) (x : Id) : Option (Except Err (Heap × Store × Id)) :=
  match copyValue m s (h.node x).value with
  | .error e => some (.error e)
  | .ok (s, v) =>
    let r := h.alloc { copyNode (h.snap 0 x) with value := v }
    if h.kids x = [] then some (.ok (r.1, s, r.2)) else
    (gen (copyLoopStepV m) n ⟨⟨r.1, [r.2], [.it (h.kids x)]⟩, s⟩).map fun o =>
      match o.2 with
      | .ok s => .ok (s.tree.heap, s.store, r.2)
      | .error e => .error e

end ITree

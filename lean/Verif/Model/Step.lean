import Verif.Model.Flags
/-
Calls and histories.
-/
namespace ITree

/-- the part of `iTree.__init__` (itree_main.py 260-312) that applies to an item without link: new item, flags masked, the subtree extended
with the deep flags pushed into every added item (`_iter_extend` with `init=True`, itree_private.py 279-300). -/
def setFlagsInit (h : Heap) (f : Flags) : List Id → Heap
  | [] => h
  | x :: xs => setFlagsInit (h.modify x fun n => { n with flags := n.flags ||| f }) f xs

/-- one round of `_iter_extend` (init=True): the argument is appended, then `_set_flags_deep(item, flags, _init=True)` on the new child (itree_private.py 152-175, 258-300) -/
def initStep (h : Heap) (p : Id) (idx : Nat) (f : Flags) (a : Arg) : Heap :=
  let h1 := extendOne h p idx a
  match (h1.kids p).getLast? with
  | some x => if f = 0#6 then h1 else setFlagsInit h1 f (x :: (h1.tree x).deep.map Tree.id)
  | none => h1

/-- the rounds of `_iter_extend` (itree_private.py 224-321) -/
def initLoop (h : Heap) (p : Id) (idx : Nat) (f : Flags) : List Arg → Heap
  | [] => h
  | a :: as => initLoop (initStep h p idx f a) p (idx + 1) f as

/-- `iTree(tag, value, subtree, None, flags)` (itree_main.py 110-311) -/
def newItem (h : Heap) (t : Tag) (v : Val) (sub : List Arg) (f : Flags) : Res Id :=
  let r := h.alloc { tag := t, value := v, flags := f }
  match sub with
  | [] => (r.1, .ok r.2)
  | sub =>
    let h1 := r.1.modify r.2 fun n => { n with fams := some [] }
    (initLoop h1 r.2 0 (f &&& Flags.deepMask) sub, .ok r.2)

/-- `iTree(tag, value, subtree, link, flags)` with a link to `file` (`none`: the tree itself) and target path `path` (itree_main.py 260-312): the item is built as without link, then it
gets the `iTLink` and the flag LINK_ROOT.  The flag LOAD_LINKS, which would load the link at once, is not modelled here (`loadLinks` of Model/LinksHeap is the call made in that case). -/
def newLink (h : Heap) (t : Tag) (v : Val) (sub : List Arg) (f : Flags) (file : Option String) (path : List Tag) : Res Id :=
  let r := newItem h t v sub f
  (r.1.modify h.next fun n => { n with flags := n.flags ||| Flags.linkRoot, link := some { file := file, path := path } }, r.2)

/-- The mutating calls of the public API covered by the model.  The items given to `new`, `extend` and `extendLeft` are not Python lists (those are argument lists, see Model/ArgLists); `Allowed` excludes them. (itree_main.py 110-3393) -/
inductive Call where
  | new (t : Tag) (v : Val) (sub : List Arg) (f : Flags)
  | newLink (t : Tag) (v : Val) (sub : List Arg) (f : Flags) (file : Option String) (path : List Tag)
  | append (p : Id) (a : Arg)
  | appendLeft (p : Id) (a : Arg)
  | insert (p : Id) (tg : Option Target) (a : Arg)
  | extend (p : Id) (as : List Arg)
  | extendTree (p u : Id)
  | extendLeft (p : Id) (as : List Arg)
  | del (p : Id) (tg : Target)
  | remove (p x : Id)
  | setItem (p : Id) (tg : Target) (a : Arg)
  | move (x : Id) (tg : Option Target)
  | rename (x : Id) (g : Tag)
  | reverse (p : Id)
  | rotate (p : Id) (n : Int)
  | sort (p : Id) (key : Id → Int) (rev : Bool)
  | clear (p : Id) (keepValue : Bool)
  | copy (x : Id)
  | setTreeReadOnly (x : Id)
  | unsetTreeReadOnly (x : Id)
  | setValueReadOnly (x : Id)
  | unsetValueReadOnly (x : Id)
  | setValue (x : Id) (v : Val)
  | setKeyValue (x : Id) (k v : Val)
  | delValue (x : Id)
  | delKeyValue (x : Id) (k : Val)
  | readIdx (x : Id)
  | readTagIdx (x : Id)

/-- forget the return value (no code) -/
def Res.void {α} (r : Res α) : Res Unit := (r.1, r.2.map fun _ => ())

/-- execute one call (itree_main.py 110-3393) -/
def step (ms : ModelSet) (h : Heap) : Call → Res Unit
  | .new t v s f => Res.void (newItem h t v s f)
  | .newLink t v s f file path => Res.void (newLink h t v s f file path)
  | .append p a => Res.void (append h p a)
  | .appendLeft p a => Res.void (appendLeft h p a)
  | .insert p tg a => Res.void (insert h p tg a)
  | .extend p as => extend h p as
  | .extendTree p u => extendTree h p u
  | .extendLeft p as => extendLeft h p as
  | .del p tg => Res.void (delItem h p tg)
  | .remove p x => Res.void (remove h p x)
  | .setItem p tg a => Res.void (setItem h p tg a)
  | .move x tg => Res.void (move h x tg)
  | .rename x g => rename h x g
  | .reverse p => reverse h p
  | .rotate p n => rotate h p n
  | .sort p k r => sort h p k r
  | .clear p k => clear h p k
  | .copy x => ((copyItem h x).1, .ok ())
  | .setTreeReadOnly x => setTreeReadOnly h x
  | .unsetTreeReadOnly x => unsetTreeReadOnly h x
  | .setValueReadOnly x => setValueReadOnly h x
  | .unsetValueReadOnly x => unsetValueReadOnly h x
  | .setValue x v => Res.void (setValue ms h x v)
  | .setKeyValue x k v => Res.void (setKeyValue ms h x k v)
  | .delValue x => Res.void (delValue h x)
  | .delKeyValue x k => Res.void (delKeyValue h x k)
  | .readIdx x => Res.void (h.idx x)
  | .readTagIdx x => Res.void (h.tagIdx x)

/-- execute a history; exceptions are caught by the caller, who goes on (no code: a program that uses the calls) -/
def run (ms : ModelSet) (h : Heap) : List Call → Heap
  | [] => h
  | c :: cs => run ms (step ms h c).1 cs

end ITree

import Verif.Spec.FindLink
import Verif.Spec.Nested
import Verif.Spec.WF
import Verif.Spec.Ready
import Verif.Model.More
import Verif.Spec.Repr
/-
Specification: histories of calls.

`Allowed` are the calls covered by the consistency theorems.  It excludes exactly the uses for which the code is known to break its own
structure (each exclusion is shown to be necessary in `Props/Defects.lean`):
* adding the root of a tree into its own tree;
* `insert`/`move`/`t[i]=x` calls ending in the AttributeError/TypeError of the family search, `insert` and `move` below `-len`;
* `extendleft` with an item that is already a child of the same parent;
* deleting a slice;
* replacing by a target that is the tag of the new item, by `...`, or across tags when the old family has no other member;
* renaming an item that has a same-tag sibling comparing equal, or an item that only pretends to have a parent.

`MayLoad` describes the `load_links` calls that are covered: links into the own tree that were not loaded yet, of link roots without local children, whose source has no linked children and no link roots as children; and calls
that find nothing to load.  (Loading over local children makes them cover linked items, Props/LoadLinks; sources with linked children are shared, `C74_shared_wrong`.)
-/
namespace ITree

/-- the argument is an existing object and may be put below `p` -/
def ArgOK (h : Heap) (p : Id) (a : Arg) : Prop := ∀ i, a = .item i → i < h.next ∧ (h.par i = none → ¬ Below h i p)

/-- the tag of the item an argument stands for -/
def argTag (h : Heap) : Arg → Tag
  | .item i => h.tag i
  | .val _ => .noTag

/-- the exceptions leaving the family search in the middle of a change -/
def crash (e : Err) : Prop := e = .attribute ∨ e = .type ∨ e = .index ∨ e = .key

/-- The object is not a Python list.  `extend`, `extendleft` and the constructor take a list among the items for the arguments of a constructor call, not for a value (itree_private.py 286, 307), and
`t[target] = list` replaces several children (itree_main.py 1554-1559); these cases are modelled separately (Model/ArgLists, Model/SetList). -/
def Arg.isPlain : Arg → Bool
  | .val (.list _) => false
  | _ => true

/-- calls covered by the consistency theorems -/
def Allowed (h : Heap) : Call → Prop
  | .new _ _ sub _ => (∀ i, Arg.item i ∈ sub → i < h.next) ∧ ∀ a ∈ sub, a.isPlain = true
  | .newLink _ _ sub f _ _ => (∀ i, Arg.item i ∈ sub → i < h.next) ∧ (∀ a ∈ sub, a.isPlain = true) ∧ f.has Flags.loadLinks = false
  | .append p a => p < h.next ∧ ArgOK h p a
  | .appendLeft p a => p < h.next ∧ ArgOK h p a
  | .insert p tg a => p < h.next ∧ ArgOK h p a ∧ (∀ k, tg = some (.int k) → -((h.kids p).length : Int) ≤ k) ∧
      (insert h p tg a).2 ≠ .error .attribute ∧ (insert h p tg a).2 ≠ .error .type
  | .extend p as => p < h.next ∧ (∀ a ∈ as, ArgOK h p a) ∧ ∀ a ∈ as, a.isPlain = true
  | .extendTree p _ => p < h.next
  | .extendLeft p as => p < h.next ∧ (∀ a ∈ as, ArgOK h p a ∧ ∀ i, a = .item i → i ∉ h.kids p) ∧ ∀ a ∈ as, a.isPlain = true
  | .del _ tg => ∀ s, tg ≠ .slice s
  | .remove _ _ => True
  | .setItem p tg a => p < h.next ∧ ArgOK h p a ∧ a.isPlain = true ∧ ((∃ e, getItem h p tg = .error e) ∨
      ∃ old, getItem h p tg = .ok (.one old) ∧ tg ≠ .dots ∧ tg.asTag ≠ some (argTag h a) ∧
        (argTag h a = h.tag old ∨ 2 ≤ (famView h p (h.tag old)).length) ∧ ∀ e, (setItem h p tg a).2 = .error e → ¬ crash e)
  | .move x tg => ∃ p, x ∈ h.kids p ∧ (∀ k, tg = some (.int k) → -((h.kids p).length - 1 : Int) ≤ k) ∧
      (move h x tg).2 ≠ .error .attribute ∧ (move h x tg).2 ≠ .error .type
  | .rename x _ => h.par x = none ∨ ∃ p, x ∈ h.kids p ∧ ∀ y ∈ h.kids p, h.tag y = h.tag x → y ≠ x → h.eqItem y x = false
  | .reverse _ => True
  | .rotate p _ => p < h.next
  | .sort p _ _ => p < h.next
  | .clear _ _ => True
  | _ => True

/-- `sort` and `clear` leave the old children with a reference to their former parent -/
def Call.leavesStrays : Call → Bool
  | .sort .. => true
  | .clear .. => true
  | _ => false

/-- every child has stored its true position in its family -/
def PositionsRight (h : Heap) : Prop := ∀ p x, x ∈ h.kids p → ∃ r, (h.node x).parent = some r ∧ 0 ≤ r.famC ∧ (famView h p (h.tag x))[r.famC.toNat]? = some x

/-- `p.load_links(force)` on a link root `p`, as covered by the consistency theorems: it decides that nothing is to be loaded; or `p` has no children and the children of the source are neither link roots nor linked;
or it is ready to be loaded with the link roots nested in the source (and no item has a parent whose child it is not any more); or all link roots it needs are ready or loaded already, and the positions in the families
stored with the children are right -/
def MayLoad (fe : FileEnv) (force : Bool) (n : Nat) (h : Heap) (p : Id) : Prop :=
  p < h.next ∧ ∃ lk, (h.node p).link = some lk ∧ lk.OwnTree ∧ ((loadLinks (linkEnv fe) force n h p).2 = .ok false ∨
    (h.kids p = [] ∧ (force = true ∨ lk.loaded = false) ∧
      ∀ s, LeadsTo h (h.root p) (dropRoot (h.tag (h.root p)) lk.path) s → ∀ c ∈ h.kids s, (h.flags c).has Flags.linkRoot = false ∧ (h.flags c).has Flags.linked = false) ∨
    ((∀ x q, h.par x = some q → x ∈ h.kids q) ∧ ∃ m D, Nested h force m p D) ∨
    ((∀ x q, h.par x = some q → x ∈ h.kids q) ∧ PositionsRight h ∧ force = false ∧ ∃ m, m ≤ n ∧ CanLoad h (fun _ => False) m p))

/-- the further calls covered: `build` loads no link, and `deep.sort` is given an existing item -/
def MoreOK (h : Heap) : More → Prop
  | .deepSort _ _ _ x => x < h.next
  | .build s => s.Quiet
  | _ => True

/-- `deep.sort` sorts, and `clear(local_only=True)` of an item that is no link root clears -/
def More.leavesStrays (h : Heap) : More → Bool
  | .deepSort .. => true
  | .clearLocal p _ => !h.isLinkRoot p
  | _ => false

/-- the states reachable by allowed calls from the state without any object; exceptions are caught by the caller, who goes on -/
inductive Reach (ms : ModelSet) : Heap → Prop
  | empty : Reach ms Heap.empty
  | step {h} (c : Call) : Reach ms h → Allowed h c → Reach ms (step ms h c).1
  | load {h} (fe : FileEnv) (force : Bool) (n : Nat) (p : Id) : Reach ms h → MayLoad fe force n h p → Reach ms (loadLinks (linkEnv fe) force n h p).1
  | more {h} (m : More) : Reach ms h → MoreOK h m → Reach ms (more h m)

/-- … without `sort` and `clear` -/
inductive Tidy (ms : ModelSet) : Heap → Prop
  | empty : Tidy ms Heap.empty
  | step {h} (c : Call) : Tidy ms h → Allowed h c → c.leavesStrays = false → Tidy ms (step ms h c).1
  | load {h} (fe : FileEnv) (force : Bool) (n : Nat) (p : Id) : Tidy ms h → MayLoad fe force n h p → Tidy ms (loadLinks (linkEnv fe) force n h p).1
  | more {h} (m : More) : Tidy ms h → MoreOK h m → m.leavesStrays h = false → Tidy ms (more h m)

end ITree

import Verif.Model.Objects
/-
What value objects look like, and what a program that knows certain value objects can do.
-/
namespace ITree

/-- an object unfolded to some depth -/
inductive Look where
  | cut
  | node (kind : Kind) (scalar : Val) (parts : List Look)

/-- what one sees of object `a` when following references at most `k` times -/
def Store.look (s : Store) : Nat → Nat → Look
  | 0, _ => .cut
  | k + 1, a => .node (s.cell a).kind (s.cell a).scalar ((s.cell a).ptrs.map (s.look k))

/-- the same for the value of an item -/
def Store.lookVal (s : Store) (k : Nat) : Val → Look
  | .obj a => s.look k a
  | v => .node .atom v []

/-- references of existing objects lead to existing objects -/
def Store.Closed (s : Store) : Prop := ∀ a, a < s.next → ∀ p ∈ (s.cell a).ptrs, p < s.next

/-- what always holds in Python: references lead to existing objects, constants refer to nothing -/
structure Store.Good (s : Store) : Prop where
  closed : s.Closed
  atoms : ∀ a, (s.cell a).kind = .atom → (s.cell a).ptrs = []

/-- what always holds in Python: tuples contain only older tuples (`rank` is the time of creation) -/
def Store.Ranked (s : Store) (rank : Nat → Nat) : Prop :=
  ∀ a, a < s.next → (s.cell a).kind = .tuple → ∀ p ∈ (s.cell a).ptrs, (s.cell p).kind = .tuple → rank p < rank a

/-- the value is a constant or an existing object -/
def Val.In (s : Store) : Val → Prop
  | .obj a => a < s.next
  | _ => True

/-- something a program can do with the value objects it knows: look into one, change one in place, make a new one -/
inductive Act where
  | read (a : Nat)
  | write (a : Nat) (l : List Nat)
  | new (kind : Kind) (scalar : Val) (l : List Nat)

/-- the store and the objects the program knows after one action.  Whatever is not possible – using unknown objects, changing constants and tuples – has no effect. -/
def Act.run : Store × List Nat → Act → Store × List Nat
  | (s, K), .read a => if a ∈ K then (s, K ++ (s.cell a).ptrs) else (s, K)
  | (s, K), .write a l => if a ∈ K ∧ (∀ p ∈ l, p ∈ K) ∧ (s.cell a).kind.mutable = true then (s.put a l, K) else (s, K)
  | (s, K), .new k v l => if ∀ p ∈ l, p ∈ K then ((s.alloc ⟨k, v, l⟩).1, s.next :: K) else (s, K)

/-- the store after any number of actions of a program that at first knows the objects `K` -/
def Store.acts (s : Store) (K : List Nat) (as : List Act) : Store := (as.foldl Act.run (s, K)).1

/-- the object a value refers to -/
def Val.ref : Val → Option Nat
  | .obj a => some a
  | _ => Option.none

/-- the value objects of a tree -/
def Tree.objs (t : Tree) : List Nat := t.pre.filterMap fun i => i.value.ref

/-- two items of two trees agree in everything but the value -/
def SameItem (a b : Tree) : Prop := b.tag = a.tag ∧ b.flags = a.flags ∧ b.link = copyLink a ∧ b.kids.length = a.kids.length

end ITree

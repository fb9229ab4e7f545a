import Verif.Model.Step
/-
Specification: consistency of a heap of items, stated through what a user can observe.
-/
namespace ITree

/-- the children of `p` carrying tag `t`, in item order -/
def famView (h : Heap) (p : Id) (t : Tag) : List Id := (h.kids p).filter fun c => h.tag c = t

/-- the families dict has exactly the families of the children, each in item order -/
structure FamOK (h : Heap) (p : Id) (F : Fams) : Prop where
  keys : (F.map Prod.fst).Nodup
  get : ∀ t, F.get? t = if famView h p t = [] then none else some (famView h p t)

/-- a heap is well formed: every item list is duplicate free, contains only allocated items, the children know their parent (by a list with
non-negative cached indexes – the caches may be arbitrarily outdated), and the families describe the children. -/
structure WF (h : Heap) : Prop where
  fresh : ∀ x, h.next ≤ x → h.kids x = [] ∧ (h.node x).parent = none
  kids_lt : ∀ p c, c ∈ h.kids p → c < h.next
  kids_nodup : ∀ p, (h.kids p).Nodup
  kid_parent : ∀ p c, c ∈ h.kids p →
    ∃ r, (h.node c).parent = some r ∧ r.pid = p ∧ r.frozen = false ∧ 0 ≤ r.absC ∧ 0 ≤ r.famC
  stale_none : ∀ p, h.kids p ≠ [] → (h.node p).stale = none
  fams_ok : ∀ p, h.kids p ≠ [] → ∃ F, (h.node p).fams = some F ∧ FamOK h p F
  fams_nil : ∀ p F, h.kids p = [] → (h.node p).fams = some F → F = []

/-- the converse of `kid_parent`: whoever names `p` as parent is a child of `p` -/
def NoZombie (h : Heap) : Prop := ∀ c p, h.par c = some p → c ∈ h.kids p

end ITree

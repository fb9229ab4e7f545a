import Verif.Model.Filters
/-
What the filter classes say they match (docstrings of itree_filters.py), in words that do not use the methods of the model.
-/
namespace ITree

/-- the item is described by the filter -/
def Filt.Describes (E : FEnv) (f : Filt) (x : FItem) : Prop :=
  match f with
  | .flags mask => ∃ i : Fin 6, mask.getLsb i = true ∧ x.flags.getLsb i = true
  | .tag t => x.tag = t
  | .tagFn pat => ∃ s, x.tag = .str s ∧ E.fn s pat = true
  | .value v => Val.pyEq x.value v = true
  | .dictValue v => ∃ d, x.value = .dict d ∧ ∃ kv ∈ d, Val.pyEq v kv.2 = true
  | .listValue v => ∃ l, x.value = .list l ∧ ∃ y ∈ l, Val.pyEq v y = true
  | .valueFn pat => ∃ s, x.value = .str s ∧ E.fn s pat = true
  | .dictValueFn pat => ∃ d, x.value = .dict d ∧ ∃ kv ∈ d, ∃ s, kv.2 = .str s ∧ E.fn s pat = true
  | .listItemFn pat => ∃ l, x.value = .list l ∧ ∃ s, Val.str s ∈ l ∧ E.fn s pat = true
  | .valueIn s => x.value.isNumber = true ∧ s x.value = .ok true
  | .dictValueIn s => ∃ d, x.value = .dict d ∧ ∃ kv ∈ d, kv.2.isNumber = true ∧ s kv.2 = .ok true
  | .listItemIn s => ∃ l, x.value = .list l ∧ ∃ y ∈ l, y.isNumber = true ∧ s y = .ok true
  | .dictKey k => ∃ d, x.value = .dict d ∧ ∃ kv ∈ d, Val.pyEq k kv.1 = true
  | .listIdx i => ∃ l, x.value = .list l ∧ -(l.length : Int) ≤ i ∧ i < l.length
  | .dictKeyFn pat => ∃ d, x.value = .dict d ∧ ∃ kv ∈ d, ∃ s, kv.1 = .str s ∧ E.fn s pat = true
  | .dictKeyIn s => ∃ d, x.value = .dict d ∧ ∃ kv ∈ d, kv.1.isNumber = true ∧ s kv.1 = .ok true

/-- the set given by the user answers every question about a number -/
def Answers (s : Val → Except Err Bool) : Prop := ∀ v, v.isNumber = true → ∃ b, s v = .ok b

/-- where the filter methods do what they say.  Sets must not raise; the list filters are used on items whose value is no string and no dict (these are iterable too); the pattern filter
for list elements only on lists; the key filter on items whose value is no list, string or model (these support `in` too) and with a hashable key; the index filter only where the
element at that index (if there is one) counts as true, and not on strings. -/
def Filt.Suits (f : Filt) (x : FItem) : Prop :=
  match f with
  | .listValue _ => (∀ s, x.value ≠ .str s) ∧ ∀ d, x.value ≠ .dict d
  | .listItemFn _ => ∃ l, x.value = .list l
  | .valueIn s => Answers s
  | .dictValueIn s => Answers s
  | .listItemIn s => Answers s ∧ (∀ t, x.value ≠ .str t) ∧ ∀ d, x.value ≠ .dict d
  | .dictKey k => k.hashable = true ∧ (∀ l, x.value ≠ .list l) ∧ (∀ s, x.value ≠ .str s) ∧ ∀ n v, x.value ≠ .model n v
  | .listIdx _ => (∀ s, x.value ≠ .str s) ∧ ∀ l, x.value = .list l → ∀ y ∈ l, y.truth = true
  | .dictKeyIn s => Answers s
  | _ => True

end ITree

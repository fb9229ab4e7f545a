import Verif.Proofs.Values
import Verif.Props.Demo
/-
C53: what is stored in an item is what is read from it.
-/
namespace ITree

theorem setVal_only (h : Heap) (x : Id) (v : Val) : OnlyValue h (h.setVal x v) x v := by
  refine ⟨rfl, fun y hy => ?_, ?_⟩ <;> simp [Heap.setVal, Heap.modify, *]

/-- the value of `x` may be changed: no READ_ONLY_VALUE, linked or placeholder flag -/
def Writable (h : Heap) (x : Id) : Prop :=
  (h.flags x).has Flags.readOnlyValue = false ∧ (h.flags x).has Flags.linked = false ∧ (h.flags x).has Flags.placeholder = false

theorem writable_has {h : Heap} {x : Id} (W : Writable h x) : (h.flags x).has Flags.valueProtected = false := by
  revert W; unfold Writable; generalize h.flags x = f; revert f; decide +kernel

/-- `t.set_value(v)` on an item whose value is no value model (or when `v` is a new model): the value is `v`, the former value is returned,
nothing else changes, and `get_value` gives `v` (the content, if `v` is a model). -/
theorem C53_set_value (ms : ModelSet) (h : Heap) (x : Id) (v : Val) (W : Writable h x)
    (hm : (∀ k w, (h.node x).value ≠ .model k w) ∨ ∃ k w, v = .model k w) :
    let r := setValue ms h x v
    r.2 = .ok (h.node x).value ∧ OnlyValue h r.1 x v ∧ ((∀ k w, v ≠ .model k w) → getValue r.1 x = v) ∧ ∀ k w, v = .model k w → getValue r.1 x = w := by
  have e : setValue ms h x v = (h.setVal x v, .ok (h.node x).value) := by
    unfold setValue
    simp only [writable_has W, Bool.false_eq_true, if_false]
    have : setOver ms (h.node x).value v = .ok (v, (h.node x).value) := by
      rcases hm with hm | ⟨k, w, rfl⟩
      · generalize ho : (h.node x).value = o at hm
        cases o <;> first | rfl | (exact absurd rfl (hm _ _))
      · cases (h.node x).value <;> rfl
    rw [this]
  have hn : ((h.setVal x v).node x).value = v := by simp [Heap.setVal, Heap.modify]
  simp only [e]
  refine ⟨by trivial, setVal_only h x v, fun hv => ?_, fun k w hv => ?_⟩
  · simp only [getValue, hn]; cases v <;> first | rfl | exact absurd rfl (hv _ _)
  · rw [getValue, hn, hv]; rfl

/-- `t.set_value(v)` on an item holding a value model, `v` no model: the value goes into the model – which may refuse it (ValueError, nothing
changes) or cast it – and the former content of the model is returned. -/
theorem C53_set_value_model (ms : ModelSet) (h : Heap) (x : Id) (v w : Val) (k : Nat) (W : Writable h x) (ho : (h.node x).value = .model k w)
    (hv : ∀ k w, v ≠ .model k w) :
    (ms k v = none → setValue ms h x v = (h, .error .value)) ∧
    ∀ v', ms k v = some v' →
      let r := setValue ms h x v
      r.2 = .ok w ∧ OnlyValue h r.1 x (.model k v') ∧ getValue r.1 x = v' := by
  have e : setOver ms (.model k w) v = match ms k v with | some w' => .ok (.model k w', w) | none => .error .value := by
    cases v <;> first | rfl | exact absurd rfl (hv _ _)
  refine ⟨fun hn => ?_, fun v' hs => ?_⟩
  · simp [setValue, writable_has W, ho, e, hn]
  · have : setValue ms h x v = (h.setVal x (.model k v'), .ok w) := by simp [setValue, writable_has W, ho, e, hs]
    simp only [this]
    exact ⟨by trivial, setVal_only h x _, by simp [getValue, Heap.setVal, Heap.modify, Val.unwrap]⟩

/-- `t.del_value()`: the value is `NoValue` and the former value – the model itself, if there is one – is returned. -/
theorem C53_del_value (h : Heap) (x : Id) (W : Writable h x) :
    (delValue h x).2 = .ok (h.node x).value ∧ OnlyValue h (delValue h x).1 x .noValue ∧ getValue (delValue h x).1 x = .noValue := by
  have : delValue h x = (h.setVal x .noValue, .ok (h.node x).value) := by simp [delValue, W.1]
  simp only [this]
  exact ⟨by trivial, setVal_only h x _, by simp [getValue, Heap.setVal, Heap.modify, Val.unwrap]⟩

/-- the stored object after an accepted `set_key_value`/`del_key_value` is what the item holds -/
theorem setKeyValue_ok {ms : ModelSet} {h : Heap} {x : Id} {k v : Val} (W : Writable h x) {o ret : Val}
    (e : setKeyOver ms (h.node x).value k v = .ok (o, ret)) : setKeyValue ms h x k v = (h.setVal x o, .ok ret) := by
  simp [setKeyValue, writable_has W, e]
theorem setKeyValue_err {ms : ModelSet} {h : Heap} {x : Id} {k v : Val} (W : Writable h x) {e : Err}
    (he : setKeyOver ms (h.node x).value k v = .error e) : setKeyValue ms h x k v = (h, .error e) := by
  simp [setKeyValue, writable_has W, he]

theorem item_dict (d : List (Val × Val)) (k : Val) (hk : k.hashable = true) :
    (Val.dict d).item k = match dictGet d k with | some v => .ok v | none => .error .key := by
  simp only [Val.item, hk, if_true]; rfl

theorem getKey_setVal (h : Heap) (x : Id) (o k : Val) : getKeyValue (h.setVal x o) x k = match o.item k with | .ok v => .ok v.unwrap | .error e => .error e := by
  simp only [getKeyValue, Heap.setVal, Heap.modify, if_true]; rfl

/-- what `set_key_value` stores in a slot that held `old` (`none`: no such slot) and what it returns: a value given to a slot holding a value
model goes into the model, everything else replaces the content -/
inductive Stored (ms : ModelSet) : Option Val → Val → Val → Val → Prop
  | fresh (v) : Stored ms none v v .noValue
  | over (old v) : (∀ k w, old ≠ .model k w) → Stored ms (some old) v v old
  | newModel (k w k' w') : Stored ms (some (.model k w)) (.model k' w') (.model k' w') (.model k w)
  | inModel (k w v v') : (∀ k w, v ≠ .model k w) → ms k v = some v' → Stored ms (some (.model k w)) v (.model k v') w

theorem stored_setOver {ms : ModelSet} {old v new ret : Val} (S : Stored ms (some old) v new ret) : setOver ms old v = .ok (new, ret) := by
  cases S with
  | over _ _ hm => cases old <;> first | rfl | exact absurd rfl (hm _ _)
  | newModel k w k' w' => rfl
  | inModel k w v v' hv e => cases v <;> first | (simp only [setOver, e]; done) | exact absurd rfl (hv _ _)

/-- `t.set_key_value(k, v)` on an item holding a dict: afterwards `t.value` is a dict in which `k` – and every key equal to it – gives the
stored value, every other key gives what it gave before; the keys keep their order, a new key is the last one; the former value or `NoValue`
is returned. -/
theorem C53_set_key_dict (ms : ModelSet) (h : Heap) (x : Id) (d : List (Val × Val)) (k v new ret : Val) (W : Writable h x)
    (hd : (h.node x).value = .dict d) (D : IsDict d) (hk : k.hashable = true) (S : Stored ms (dictGet d k) v new ret) :
    let r := setKeyValue ms h x k v
    r.2 = .ok ret ∧ ∃ d', OnlyValue h r.1 x (.dict d') ∧ IsDict d' ∧
      (∀ q, q.hashable = true → (Val.dict d').item q = if Val.pyEq q k then .ok new else (Val.dict d).item q) ∧
      (∀ q, q.hashable = true → getKeyValue r.1 x q = if Val.pyEq q k then .ok new.unwrap else getKeyValue h x q) ∧
      d'.map Prod.fst = if dictGet d k = none then d.map Prod.fst ++ [k] else d.map Prod.fst := by
  have hkeys : ∀ w, (dictSet d k w).map Prod.fst = if (dictGet d k).isNone then d.map Prod.fst ++ [k] else d.map Prod.fst := by
    intro w
    clear S hd D
    induction d with
    | nil => simp [dictSet, dictGet]
    | cons e r ih =>
      obtain ⟨q, u⟩ := e
      unfold dictSet dictGet
      by_cases c : Val.pyEq q k = true
      · simp [c]
      · simp only [c, if_false, Bool.false_eq_true, List.map_cons, ih]
        split <;> simp
  have e : setKeyOver ms (h.node x).value k v = .ok (.dict (dictSet d k new), ret) := by
    unfold setKeyOver
    rw [hd, item_dict d k hk]
    cases hg : dictGet d k with
    | none => rw [hg] at S; cases S; simp [Val.setItem, hk]
    | some old =>
      rw [hg] at S
      simp only [stored_setOver S, Val.setItem, hk, if_true]
  have ir : ∀ q, q.hashable = true → (Val.dict (dictSet d k new)).item q = if Val.pyEq q k then .ok new else (Val.dict d).item q := by
    intro q hq
    rw [item_dict _ q hq, item_dict _ q hq, dictGet_set k new q hk hq d D.1]
    by_cases c : Val.pyEq q k = true <;> simp [c]
  simp only [setKeyValue_ok W e]
  refine ⟨by trivial, dictSet d k new, setVal_only h x _, dictSet_isDict k new hk d D, ir, ?_, ?_⟩
  · intro q hq
    rw [getKey_setVal, ir q hq]
    by_cases c : Val.pyEq q k = true
    · simp [c]
    · simp only [c, Bool.false_eq_true, if_false, getKeyValue, hd]; rfl
  · rw [hkeys new]
    cases dictGet d k <;> simp

/-- a value model stored under a key may refuse the value: ValueError and nothing changes; an unhashable key is a TypeError -/
theorem C53_set_key_dict_refused (ms : ModelSet) (h : Heap) (x : Id) (d : List (Val × Val)) (k v : Val) (W : Writable h x)
    (hd : (h.node x).value = .dict d) :
    (∀ m w, k.hashable = true → dictGet d k = some (.model m w) → (∀ k w, v ≠ .model k w) → ms m v = none → setKeyValue ms h x k v = (h, .error .value)) ∧
    (k.hashable = false → setKeyValue ms h x k v = (h, .error .type)) := by
  refine ⟨fun m w hk hg hv hms => setKeyValue_err W ?_, fun hk => setKeyValue_err W ?_⟩
  · unfold setKeyOver
    rw [hd, item_dict d k hk, hg]
    have : setOver ms (.model m w) v = .error .value := by
      cases v <;> first | (simp only [setOver, hms]; done) | exact absurd rfl (hv _ _)
    simp only [this]
  · unfold setKeyOver
    have : (Val.dict d).item k = .error .type := by simp [Val.item, hk]
    rw [hd, this]
    cases k <;> simp [Val.hashable] at hk <;> simp [Val.pyEq, Val.inf]

theorem pyGet_pos {α} {l : List α} {i : Int} {j : Nat} (hj : j < l.length) (hi : i = j ∨ i = (j : Int) - l.length) : pyGet l i = l[j]? ∧ pyPos l.length i = some j := by
  unfold pyGet pyPos
  rcases hi with rfl | rfl
  · simp [hj]
  · have h1 : ¬ (0 : Int) ≤ (j : Int) - l.length := by omega
    have h2 : (0 : Int) ≤ (j : Int) - l.length + l.length := by omega
    simp only [h1, if_false, h2, if_true]
    have : ((j : Int) - l.length + l.length).toNat = j := by omega
    simp [this]

theorem asIndex_item (l : List Val) (k : Val) (i : Int) (hk : k.asIndex = some i) :
    (Val.list l).item k = match pyGet l i with | some v => .ok v | none => .error .index := by
  simp only [Val.item, hk]; rfl

/-- `t.set_key_value(i, v)` on an item holding a list and an index `i` in range (from the front or from the back): exactly that element is
replaced, and the former element returned. -/
theorem C53_set_key_list (ms : ModelSet) (h : Heap) (x : Id) (l : List Val) (i : Int) (j : Nat) (k v old new ret : Val) (W : Writable h x)
    (hl : (h.node x).value = .list l) (hk : k.asIndex = some i) (hi : i = j ∨ i = (j : Int) - l.length) (hj : l[j]? = some old)
    (S : Stored ms (some old) v new ret) :
    let r := setKeyValue ms h x k v
    r.2 = .ok ret ∧ OnlyValue h r.1 x (.list (l.set j new)) ∧ getKeyValue r.1 x k = .ok new.unwrap := by
  have hjl : j < l.length := (List.getElem?_eq_some_iff.1 hj).1
  obtain ⟨hg, hp⟩ := pyGet_pos hjl hi
  have e : setKeyOver ms (h.node x).value k v = .ok (.list (l.set j new), ret) := by
    unfold setKeyOver
    rw [hl, asIndex_item l k i hk, hg, hj]
    simp only [stored_setOver S, Val.setItem, hk, hg, hj, pySet, hp]
  simp only [setKeyValue_ok W e]
  refine ⟨by trivial, setVal_only h x _, ?_⟩
  rw [getKey_setVal, asIndex_item _ k i hk, (pyGet_pos (l := l.set j new) (j := j) (i := i) (by simpa using hjl) (by simpa using hi)).1]
  simp [hjl]

/-- an index out of range is an IndexError, a key that is no index (and not `INF`) a TypeError; `INF` appends. -/
theorem C53_set_key_list_else (ms : ModelSet) (h : Heap) (x : Id) (l : List Val) (v : Val) (W : Writable h x) (hl : (h.node x).value = .list l) :
    (∀ k (i : Int), k.asIndex = some i → (i < -l.length ∨ l.length ≤ i) → setKeyValue ms h x k v = (h, .error .index)) ∧
    (∀ k, k.asIndex = none → k ≠ Val.inf → setKeyValue ms h x k v = (h, .error .type)) ∧
    (let r := setKeyValue ms h x Val.inf v; r.2 = .ok .noValue ∧ OnlyValue h r.1 x (.list (l ++ [v]))) := by
  refine ⟨fun k i hk hi => setKeyValue_err W ?_, fun k hk hn => setKeyValue_err W ?_, ?_⟩
  · have : pyGet l i = none := by
      unfold pyGet
      rcases hi with hi | hi
      · rw [if_neg (by omega), if_neg (by omega)]
      · rw [if_pos (by omega), List.getElem?_eq_none (by omega)]
    unfold setKeyOver
    rw [hl, asIndex_item l k i hk, this]
  · unfold setKeyOver
    have : (Val.list l).item k = .error .type := by simp [Val.item, hk]
    rw [hl, this]
    have : Val.pyEq k Val.inf = false := by
      cases k <;> simp [Val.inf, Val.pyEq, Val.asIndex] at hk hn ⊢; exact hn
    simp [this]
  · have e : setKeyOver ms (h.node x).value Val.inf v = .ok (.list (l ++ [v]), .noValue) := by
      rw [hl]; simp [setKeyOver, Val.item, Val.inf, Val.asIndex, Val.pyEq, Val.appendItem]
    simp only [setKeyValue_ok W e]
    exact ⟨by trivial, setVal_only h x _⟩

/-- `get_key_value`, `set_key_value` and `del_key_value` on an item whose value is neither list nor dict: no slot can be written. -/
theorem C53_no_slots (ms : ModelSet) (h : Heap) (x : Id) (k v : Val) (W : Writable h x) (hl : ∀ l, (h.node x).value ≠ .list l) (hd : ∀ d, (h.node x).value ≠ .dict d) :
    (∃ e, setKeyValue ms h x k v = (h, .error e)) ∧ delKeyValue h x k = (h, .error .attribute) := by
  constructor
  · have key : ∃ e, setKeyOver ms (h.node x).value k v = .error e := by
      have hs : ∀ w, (h.node x).value.setItem k w = .error .type := by
        intro w; generalize (h.node x).value = o at *
        cases o <;> first | rfl | exact absurd rfl (hl _) | exact absurd rfl (hd _)
      have ha : ∀ w, (h.node x).value.appendItem w = .error .attribute := by
        intro w; generalize (h.node x).value = o at *
        cases o <;> first | rfl | exact absurd rfl (hl _)
      unfold setKeyOver
      simp only [hs, ha]
      repeat' split
      all_goals exact ⟨_, rfl⟩
    obtain ⟨e, he⟩ := key
    exact ⟨e, setKeyValue_err W he⟩
  · have : (h.node x).value.popItem k = .error .attribute := by
      generalize (h.node x).value = o at *
      cases o <;> first | rfl | exact absurd rfl (hl _) | exact absurd rfl (hd _)
    simp [delKeyValue, W.1, this]

/-- `t.del_key_value(k)` on an item holding a dict: the stored object (the model itself, if it is one) is returned, afterwards no key equal to
`k` is there and every other key gives what it gave before; a key that is not there is a KeyError. -/
theorem C53_del_key_dict (h : Heap) (x : Id) (d : List (Val × Val)) (k : Val) (W : Writable h x)
    (hd : (h.node x).value = .dict d) (D : IsDict d) (hk : k.hashable = true) :
    (∀ v, (Val.dict d).item k = .ok v → let r := delKeyValue h x k
      r.2 = .ok v ∧ ∃ d', OnlyValue h r.1 x (.dict d') ∧
        (∀ q, q.hashable = true → getKeyValue r.1 x q = if Val.pyEq q k then .error .key else getKeyValue h x q) ∧ d'.length + 1 = d.length) ∧
    ((Val.dict d).item k = .error .key → delKeyValue h x k = (h, .error .key)) := by
  have hlen : ∀ v, dictGet d k = some v → (dictDel d k).length + 1 = d.length := by
    clear hd D
    induction d with
    | nil => simp [dictGet]
    | cons e r ih =>
      obtain ⟨q, u⟩ := e
      intro v hv
      unfold dictGet at hv
      unfold dictDel
      by_cases c : Val.pyEq q k = true
      · simp [c]
      · simp only [c, if_false, Bool.false_eq_true] at hv ⊢
        simp [ih v hv]
  refine ⟨fun v hv => ?_, fun hv => ?_⟩
  · rw [item_dict d k hk] at hv
    cases hg : dictGet d k with
    | none => simp [hg] at hv
    | some u =>
      simp only [hg, Except.ok.injEq] at hv
      subst hv
      have e : delKeyValue h x k = (h.setVal x (.dict (dictDel d k)), .ok u) := by
        simp [delKeyValue, W.1, hd, Val.popItem, hk, hg]
      simp only [e]
      refine ⟨by trivial, _, setVal_only h x _, fun q hq => ?_, hlen u hg⟩
      rw [getKey_setVal, item_dict _ q hq, dictGet_del k q hk hq d D]
      by_cases c : Val.pyEq q k = true
      · simp [c]
      · simp only [c, Bool.false_eq_true, if_false, getKeyValue, hd, item_dict d q hq]; rfl
  · rw [item_dict d k hk] at hv
    cases hg : dictGet d k with
    | none => simp [delKeyValue, W.1, hd, Val.popItem, hk, hg]
    | some u => simp [hg] at hv

/-- `t.del_key_value(i)` on an item holding a list: exactly the element at that index is removed and returned; IndexError out of range. -/
theorem C53_del_key_list (h : Heap) (x : Id) (l : List Val) (k : Val) (i : Int) (W : Writable h x)
    (hl : (h.node x).value = .list l) (hk : k.asIndex = some i) :
    (∀ (j : Nat) v, (i = j ∨ i = (j : Int) - l.length) → l[j]? = some v → let r := delKeyValue h x k
      r.2 = .ok v ∧ OnlyValue h r.1 x (.list (l.take j ++ l.drop (j + 1)))) ∧
    ((i < -l.length ∨ l.length ≤ i) → delKeyValue h x k = (h, .error .index)) := by
  refine ⟨fun j v hi hj => ?_, fun hi => ?_⟩
  · have hjl : j < l.length := (List.getElem?_eq_some_iff.1 hj).1
    obtain ⟨hg, hp⟩ := pyGet_pos hjl hi
    have e : delKeyValue h x k = (h.setVal x (.list (l.take j ++ l.drop (j + 1))), .ok v) := by
      simp [delKeyValue, W.1, hl, Val.popItem, hk, hg, hj, pyDel, hp, List.eraseIdx_eq_take_drop_succ]
    simp only [e]
    exact ⟨by trivial, setVal_only h x _⟩
  · have : pyGet l i = none := by
      unfold pyGet
      rcases hi with hi | hi
      · rw [if_neg (by omega), if_neg (by omega)]
      · rw [if_pos (by omega), List.getElem?_eq_none (by omega)]
    simp [delKeyValue, W.1, hl, Val.popItem, hk, this]

/-- an item holding a dict with a model and an item holding a list -/
def demoVals : Heap :=
  (demo.setVal 1 (.dict [(.str "a", .int 1), (.int 1, .model 0 (.int 7)), (.none, .list [])])).setVal 2 (.list [.int 5, .str "x", .model 1 (.int 3)])

example : Writable demoVals 1 ∧ Writable demoVals 2 := by unfold Writable; decide +kernel
example : IsDict [(.str "a", .int 1), (.int 1, .model 0 (.int 7)), (.none, .list [])] := by
  constructor <;> simp [Val.hashable, Val.pyEq]
def demoDict : List (Val × Val) := [(.str "a", .int 1), (.int 1, .model 0 (.int 7)), (.none, .list [])]
theorem demoDict_ok : IsDict demoDict := by constructor <;> simp [demoDict, Val.hashable, Val.pyEq]
-- the key `True` equals the key 1, the value goes into the model
example : let r := setKeyValue ms0 demoVals 1 (.bool true) (.int 9); r.2 = .ok (.int 7) ∧ getKeyValue r.1 1 (.int 1) = .ok (.int 9) := by
  have S : Stored ms0 (dictGet demoDict (.bool true)) (.int 9) (.model 0 (.int 9)) (.int 7) := by
    have : dictGet demoDict (.bool true) = some (.model 0 (.int 7)) := by simp [demoDict, dictGet, Val.pyEq]
    rw [this]; exact .inModel _ _ _ _ (by simp) rfl
  obtain ⟨h1, d', _, _, _, h2, _⟩ := C53_set_key_dict ms0 demoVals 1 demoDict (.bool true) (.int 9) (.model 0 (.int 9)) (.int 7)
    (by unfold Writable; decide +kernel) rfl demoDict_ok rfl S
  exact ⟨h1, by rw [h2 (.int 1) rfl]; simp [Val.pyEq, Val.unwrap]⟩
example : (setKeyValue ms0 demoVals 2 (.int (-3)) (.str "y")).2 = .ok (.int 5) :=
  (C53_set_key_list ms0 demoVals 2 [.int 5, .str "x", .model 1 (.int 3)] (-3) 0 (.int (-3)) (.str "y") (.int 5) (.str "y") (.int 5) (by unfold Writable; decide +kernel)
    rfl rfl (by simp) rfl (.over _ _ (by simp))).1
example : (delKeyValue demoVals 2 (.int 2)).2 = .ok (.model 1 (.int 3)) :=
  ((C53_del_key_list demoVals 2 [.int 5, .str "x", .model 1 (.int 3)] (.int 2) 2 (by unfold Writable; decide +kernel) rfl rfl).1 2 _ (.inl rfl) rfl).1

end ITree
